import Verif.Fourier.OndelettesProps

/-!
# C129: polyphase and quadrature mirror forms of a lifting scheme
-/

namespace Verif.Tod

open FracRat

/-- Value of a Laurent polynomial: `z^n0 P(z)` (specification). -/
noncomputable def Laurent.val (p : Laurent) (z : ℝ) : ℝ := z ^ p.n0 * p.poly.horner (RingHom.id ℝ) z

/-- The polynomials of a scheme are given by their coefficients. -/
def Lift.Coefs (w : Lift) : Prop := ∀ e ∈ w.etapes, e.poly.poly.racines = false

theorem mac_val (a b c : Laurent) (ha : a.poly.racines = false) (hb : b.poly.racines = false) (hc : c.poly.racines = false) (z : ℝ) (hz : z ≠ 0) :
    (mac a b c).val z = a.val z + b.val z * c.val z ∧ (mac a b c).poly.racines = false := by
  refine ⟨?_, rfl⟩
  unfold mac Laurent.val
  simp only
  have hm : (b.poly.mul c.poly).racines = false := by rw [mul_racines _ _ (by rw [hb, hc]), hb]
  rw [C30_somme, C30_decalage _ _ ha, C30_decalage _ _ hm, C30_produit _ _ _ _ (by rw [hb]; simp)]
  set n := min a.n0 (b.n0 + c.n0) with hn
  have e1 : z ^ n * z ^ (a.n0 - n).toNat = z ^ a.n0 := by
    rw [← zpow_natCast, ← zpow_add₀ hz, Int.toNat_of_nonneg (by omega)]; congr 1; omega
  have e2 : z ^ n * z ^ (b.n0 + c.n0 - n).toNat = z ^ b.n0 * z ^ c.n0 := by
    rw [← zpow_natCast, ← zpow_add₀ hz, Int.toNat_of_nonneg (by omega), ← zpow_add₀ hz]; congr 1; omega
  rw [mul_add, ← mul_assoc, ← mul_assoc, e1, e2]
  ring

/-- Invariant of the development. -/
structure Bon (H : Polyphase) : Prop where
  r00 : H.H00.poly.racines = false
  r01 : H.H01.poly.racines = false
  r10 : H.H10.poly.racines = false
  r11 : H.H11.poly.racines = false
  n0 : H.H00.n0 = H.H01.n0
  n1 : H.H10.n0 = H.H11.n0
  m0 : H.H00.n0 ≤ 0
  m1 : H.H10.n0 ≤ 0

/-- The matrix of a polyphase form at a point (specification). -/
noncomputable def Polyphase.applique (H : Polyphase) (z : ℝ) (v : ℝ × ℝ) : ℝ × ℝ := (H.H00.val z * v.1 + H.H01.val z * v.2, H.H10.val z * v.1 + H.H11.val z * v.2)

/-- A lifting stage at a point (specification): the matrix `(1 0; T 1)` or `(1 S; 0 1)`. -/
noncomputable def LiftElem.applique (e : LiftElem) (z : ℝ) (v : ℝ × ℝ) : ℝ × ℝ := if e.predict then (v.1, v.2 + e.poly.val z * v.1) else (v.1 + e.poly.val z * v.2, v.2)

theorem devStep_bon (H : Polyphase) (hH : Bon H) (e : LiftElem) (he : e.poly.poly.racines = false) : Bon (devStep H e) := by
  obtain ⟨a, b, c, d, n0, n1, m0, m1⟩ := hH
  unfold devStep
  split
  · exact ⟨a, b, rfl, rfl, n0, by simp only [mac]; omega, m0, by simp only [mac]; omega⟩
  · exact ⟨rfl, rfl, c, d, by simp only [mac]; omega, n1, by simp only [mac]; omega, m1⟩

theorem devStep_applique (H : Polyphase) (hH : Bon H) (e : LiftElem) (he : e.poly.poly.racines = false) (z : ℝ) (hz : z ≠ 0) (v : ℝ × ℝ) : (devStep H e).applique z v = e.applique z (H.applique z v) := by
  unfold devStep LiftElem.applique
  split
  · simp only [Polyphase.applique, (mac_val _ _ _ hH.r10 he hH.r00 z hz).1, (mac_val _ _ _ hH.r11 he hH.r01 z hz).1]
    ext <;> ring
  · simp only [Polyphase.applique, (mac_val _ _ _ hH.r00 he hH.r10 z hz).1, (mac_val _ _ _ hH.r01 he hH.r11 z hz).1]
    ext <;> ring

theorem dev_bon (l : List LiftElem) (hl : ∀ e ∈ l, e.poly.poly.racines = false) (H : Polyphase) (hH : Bon H) : Bon (l.foldl devStep H) ∧ ∀ z, z ≠ 0 → ∀ v, (l.foldl devStep H).applique z v = l.foldl (fun v e => LiftElem.applique e z v) (H.applique z v) := by
  induction l generalizing H with
  | nil => exact ⟨hH, fun z _ v => rfl⟩
  | cons e l ih =>
    have he := hl e List.mem_cons_self
    obtain ⟨h1, h2⟩ := ih (fun e he => hl e (List.mem_cons_of_mem _ he)) (devStep H e) (devStep_bon H hH e he)
    refine ⟨h1, fun z hz v => ?_⟩
    rw [List.foldl_cons, List.foldl_cons, h2 z hz v, devStep_applique H hH e he z hz v]

/-- The identity matrix. -/
noncomputable def unite : Polyphase := ⟨⟨Poly.one, 0⟩, ⟨Poly.cst 0, 0⟩, ⟨Poly.cst 0, 0⟩, ⟨Poly.one, 0⟩⟩

theorem unite_bon : Bon unite := ⟨rfl, rfl, rfl, rfl, rfl, rfl, le_rfl, le_rfl⟩

theorem cst_val (c z : ℝ) : (Poly.cst c).horner (RingHom.id ℝ) z = c := by
  rw [Poly.cst, horner_deCoefs, valCoefs_cons, valCoefs_nil]; simp

theorem unite_applique (z : ℝ) (v : ℝ × ℝ) : unite.applique z v = v := by
  simp only [unite, Polyphase.applique, Laurent.val, horner_one, cst_val]
  ext <;> simp

theorem echelle_val (a : Laurent) (s z : ℝ) : (echelle a s).val z = a.val z * s := by
  unfold echelle Laurent.val
  rw [(C30_scalaire _ _ _ _).1]
  simp [mul_assoc]

/-- **C129 (polyphase form).**  At every `z ≠ 0`, the polyphase matrix of a lifting scheme is the product of its stages, the first row multiplied by `K` and the second divided by `K`. -/
theorem C129_polyphase (w : Lift) (hw : w.Coefs) (z : ℝ) (hz : z ≠ 0) (v : ℝ × ℝ) :
    (polyphase w).applique z v = (w.K * (w.etapes.foldl (fun v e => LiftElem.applique e z v) v).1, (w.etapes.foldl (fun v e => LiftElem.applique e z v) v).2 / w.K) := by
  obtain ⟨-, h2⟩ := dev_bon w.etapes hw unite unite_bon
  have := h2 z hz v
  rw [unite_applique] at this
  rw [← this]
  unfold polyphase
  simp only [Polyphase.applique, echelle_val]
  change (_, _) = _
  ext
  · simp only [unite]; ring
  · simp only [unite]; ring

/-- The determinant of a product of stages is 1. -/
theorem etapes_det (l : List LiftElem) (z : ℝ) (u v : ℝ × ℝ) :
    (l.foldl (fun v e => LiftElem.applique e z v) u).1 * (l.foldl (fun v e => LiftElem.applique e z v) v).2 - (l.foldl (fun v e => LiftElem.applique e z v) u).2 * (l.foldl (fun v e => LiftElem.applique e z v) v).1 = u.1 * v.2 - u.2 * v.1 := by
  induction l generalizing u v with
  | nil => rfl
  | cons e l ih =>
    rw [List.foldl_cons, List.foldl_cons, ih]
    unfold LiftElem.applique
    split <;> simp only <;> ring

/-- **C129 (determinant).**  The polyphase matrix of every lifting scheme (with `K ≠ 0`) has the determinant 1 at every `z ≠ 0`: the filter bank is invertible. -/
theorem C129_determinant (w : Lift) (hw : w.Coefs) (hK : w.K ≠ 0) (z : ℝ) (hz : z ≠ 0) :
    (polyphase w).H00.val z * (polyphase w).H11.val z - (polyphase w).H01.val z * (polyphase w).H10.val z = 1 := by
  have h1 := C129_polyphase w hw z hz (1, 0)
  have h2 := C129_polyphase w hw z hz (0, 1)
  have hd := etapes_det w.etapes z (1, 0) (0, 1)
  simp only [Polyphase.applique, mul_one, mul_zero, add_zero, zero_add, Prod.mk.injEq] at h1 h2
  rw [h1.1, h2.2, h2.1, h1.2]
  simp only [mul_one, mul_zero, sub_zero] at hd
  field_simp
  linear_combination hd

/-! ### The transform of a geometric signal -/

/-- Reach of a stage: how far from place `j` it reads. -/
def LiftElem.portee (e : LiftElem) : ℕ := e.poly.n0.natAbs + e.poly.poly.coefs.length

/-- Reach of a scheme. -/
def portee (l : List LiftElem) : ℕ := (l.map LiftElem.portee).sum

theorem valLift_geo (half : ℕ) (f : ℕ → ℝ) (A z : ℝ) (hz : z ≠ 0) (c : List ℝ) (p : ℤ) (m : ℕ) (hf : ∀ k, m ≤ k → k + m < half → f k = A * z ^ k) (hp : (m : ℤ) ≤ p) (hq : p + c.length + m ≤ half) :
    valLift half f c p = A * z ^ p * valCoefs (RingHom.id ℝ) c z := by
  induction c generalizing p with
  | nil => rw [valLift, valCoefs_nil, mul_zero]
  | cons c l ih =>
    rw [List.length_cons] at hq
    push_cast at hq
    rw [valLift, valCoefs_cons, if_pos (by omega), ih (p + 1) (by omega) (by omega), hf p.toNat (by omega) (by omega), zpow_add_one₀ hz]
    have e : z ^ p.toNat = z ^ p := by rw [← zpow_natCast, Int.toNat_of_nonneg (by omega)]
    rw [e, RingHom.id_apply]
    ring

theorem geo_etages (half : ℕ) (z : ℝ) (hz : z ≠ 0) (l : List LiftElem) (hl : ∀ e ∈ l, e.poly.poly.racines = false) (m : ℕ) (q : (ℕ → ℝ) × (ℕ → ℝ)) (v : ℝ × ℝ) (h1 : ∀ k, m ≤ k → k + m < half → q.1 k = v.1 * z ^ k) (h2 : ∀ k, m ≤ k → k + m < half → q.2 k = v.2 * z ^ k) :
    ∀ k, m + portee l ≤ k → k + m + portee l < half → (l.foldl (etagePur 1 half) q).1 k = (l.foldl (fun v e => LiftElem.applique e z v) v).1 * z ^ k ∧
      (l.foldl (etagePur 1 half) q).2 k = (l.foldl (fun v e => LiftElem.applique e z v) v).2 * z ^ k := by
  induction l generalizing m q v with
  | nil => exact fun k a b => ⟨h1 k (by simp [portee] at a; omega) (by omega), h2 k (by simp [portee] at a; omega) (by omega)⟩
  | cons e l ih =>
    have he := hl e List.mem_cons_self
    have hps : portee (e :: l) = e.portee + portee l := by simp [portee]
    have hval : e.poly.poly.horner (RingHom.id ℝ) z = valCoefs (RingHom.id ℝ) e.poly.poly.coefs z := by
      have := horner_deCoefs (RingHom.id ℝ) e.poly.poly.coefs z
      rw [← this]
      unfold Poly.horner Poly.deCoefs
      rw [he]
      rfl
    have key : ∀ (f : ℕ → ℝ) (A : ℝ), (∀ k, m ≤ k → k + m < half → f k = A * z ^ k) → ∀ k, m + e.portee ≤ k → k + (m + e.portee) < half → valLift half f e.poly.poly.coefs (k + e.poly.n0) = e.poly.val z * A * z ^ k := by
      intro f A hf k a b
      unfold LiftElem.portee at a b
      rw [valLift_geo half f A z hz e.poly.poly.coefs _ m hf (by omega) (by omega), Laurent.val, hval, zpow_add₀ hz, zpow_natCast]
      ring
    intro k a b
    rw [List.foldl_cons, List.foldl_cons]
    rw [hps] at a b
    refine ih (fun e he => hl e (List.mem_cons_of_mem _ he)) (m + e.portee) _ _ (fun k a b => ?_) (fun k a b => ?_) k (by omega) (by omega)
    · unfold etagePur LiftElem.applique
      split
      · exact h1 k (by omega) (by omega)
      · simp only
        rw [h1 k (by omega) (by omega), key q.2 v.2 h2 k a b]
        ring
    · unfold etagePur LiftElem.applique
      split
      · simp only
        rw [h2 k (by omega) (by omega), key q.1 v.1 h1 k a b]
        ring
      · exact h2 k (by omega) (by omega)

/-- **C129 (the transform is the polyphase matrix, without its normalisation).**  On a signal whose even samples are `a z^j` and odd samples `b z^j`, a step of the transform returns, far enough from the borders (the sum of the reaches of the
stages), `z^j` times the polyphase matrix applied to `(a, b)`, the first row divided by `K` and the second multiplied by `K`. -/
theorem C129_transformee (w : Lift) (hw : w.Coefs) (hK : w.K ≠ 0) (z : ℝ) (hz : z ≠ 0) (a b : ℝ) (x : List ℝ) (h : ℕ) (hn : 2 * h ≤ x.length) (hs : ∀ j < h, x[2 * j]? = some (a * z ^ j)) (hd : ∀ j < h, x[2 * j + 1]? = some (b * z ^ j)) :
    ∃ y, liftStep w x (2 * h) = some y ∧ ∀ j, portee w.etapes ≤ j → j + portee w.etapes < h →
      y[j]? = some (((polyphase w).H00.val z * a + (polyphase w).H01.val z * b) / w.K * z ^ j) ∧ y[h + j]? = some (((polyphase w).H10.val z * a + (polyphase w).H11.val z * b) * w.K * z ^ j) := by
  obtain ⟨y, h1, -, h3, -⟩ := liftStep_pair w x h hn _ _ hs hd
  refine ⟨y, h1, fun j a1 a2 => ?_⟩
  obtain ⟨g1, g2⟩ := geo_etages h z hz w.etapes hw 0 (fun j => a * z ^ j, fun j => b * z ^ j) (a, b) (fun k _ _ => rfl) (fun k _ _ => rfl) j (by omega) (by omega)
  have hp := C129_polyphase w hw z hz (a, b)
  simp only [Polyphase.applique, Prod.mk.injEq] at hp
  rw [h3.2.1 j (by omega), h3.2.2 j (by omega), g1, g2, hp.1, hp.2]
  constructor
  · congr 1; field_simp
  · congr 1; field_simp

/-! ### Quadrature mirror form -/

theorem boucleCompose_val (v : Poly ℝ) (hv : v.racines = false) (l : List ℝ) (res : Poly ℝ) (hr : res.racines = false) (z : ℝ) :
    (boucleCompose v l res).horner (RingHom.id ℝ) z = hornerCoefs (RingHom.id ℝ) (v.horner (RingHom.id ℝ) z) l (res.horner (RingHom.id ℝ) z) := by
  induction l generalizing res with
  | nil => rfl
  | cons c l ih =>
    rw [boucleCompose, ih _ rfl, C30_somme, C30_produit _ _ _ _ (by rw [hr]; simp), cst_val]
    rfl

theorem compose_val (p v : Poly ℝ) (hp : p.racines = false) (hv : v.racines = false) (z : ℝ) : (compose p v).horner (RingHom.id ℝ) z = p.horner (RingHom.id ℝ) (v.horner (RingHom.id ℝ) z) := by
  unfold compose
  rw [Poly.horner.eq_1 _ p, hp]
  cases e : p.coefs.reverse with
  | nil => rw [cst_val]; rfl
  | cons c l =>
    simp only [Bool.false_eq_true, if_false]
    rw [boucleCompose_val v hv l _ rfl, cst_val]
    rfl

/-- **C129 (quadrature mirror filters).**  For every lifting scheme the conversion succeeds and, at every `z ≠ 0`, the filters are `H00(z²) + z H01(z²)` and `H10(z²) + z H11(z²)`, each multiplied by a power of `z` (a delay). -/
theorem C129_qmf (w : Lift) (hw : w.Coefs) : ∃ H0 H1 k0 k1, qmf (polyphase w) = some (H0, H1) ∧ ∀ z : ℝ, z ≠ 0 →
    H0.horner (RingHom.id ℝ) z = z ^ (k0 : ℕ) * ((polyphase w).H00.val (z ^ 2) + z * (polyphase w).H01.val (z ^ 2)) ∧ H1.horner (RingHom.id ℝ) z = z ^ (k1 : ℕ) * ((polyphase w).H10.val (z ^ 2) + z * (polyphase w).H11.val (z ^ 2)) := by
  obtain ⟨hb, -⟩ := dev_bon w.etapes hw unite unite_bon
  have hbp : Bon (polyphase w) := by
    have hr : ∀ (a : Laurent) (s : ℝ), a.poly.racines = false → (echelle a s).poly.racines = false := by
      intro a s ha
      unfold echelle Poly.mulScal
      rw [ha]; rfl
    exact ⟨hr _ _ hb.r00, hr _ _ hb.r01, hr _ _ hb.r10, hr _ _ hb.r11, hb.n0, hb.n1, hb.m0, hb.m1⟩
  generalize polyphase w = H at hbp
  obtain ⟨r00, r01, r10, r11, n0, n1, m0, m1⟩ := hbp
  unfold qmf
  set md := -(min (min H.H00.n0 H.H01.n0) (min H.H10.n0 H.H11.n0)) with hmd
  have hmd0 : 0 ≤ md := by omega
  simp only
  rw [if_neg (by omega)]
  refine ⟨_, _, (2 * (md - H.H00.n0)).toNat, (2 * (md - H.H10.n0)).toNat, rfl, fun z hz => ?_⟩
  have hz2 : ((Poly.z : Poly ℝ).mul Poly.z).horner (RingHom.id ℝ) z = z ^ 2 := by
    rw [C30_produit _ _ _ _ (by intro h; cases h), horner_z]; ring
  have hr2 : ((Poly.z : Poly ℝ).mul Poly.z).racines = false := rfl
  have key : ∀ a : Laurent, a.poly.racines = false → a.n0 ≤ 0 → -md ≤ a.n0 → (compose (a.poly.decale md.toNat) ((Poly.z : Poly ℝ).mul Poly.z)).horner (RingHom.id ℝ) z = z ^ (2 * (md - a.n0)).toNat * a.val (z ^ 2) := by
    intro a ha h1 h2
    rw [compose_val _ _ rfl hr2, hz2, C30_decalage _ _ ha, Laurent.val, ← mul_assoc]
    congr 1
    have e1 : (z ^ 2) ^ md.toNat = z ^ (2 * md) := by
      rw [← pow_mul, ← zpow_natCast]; congr 1; push_cast; rw [Int.toNat_of_nonneg hmd0]
    have e2 : z ^ (2 * (md - a.n0)).toNat = z ^ (2 * (md - a.n0)) := by
      rw [← zpow_natCast, Int.toNat_of_nonneg (by omega)]
    have e3 : (z ^ 2) ^ a.n0 = z ^ (2 * a.n0) := by
      rw [zpow_mul]; norm_cast
    rw [e1, e2, e3, ← zpow_add₀ hz]
    congr 1
    ring
  constructor
  · rw [C30_somme, C30_produit _ _ _ _ (by intro h; cases h), horner_z, key _ r00 m0 (by omega), key _ r01 (by omega) (by omega), ← n0]
    ring
  · rw [C30_somme, C30_produit _ _ _ _ (by intro h; cases h), horner_z, key _ r10 m1 (by omega), key _ r11 (by omega) (by omega), ← n1]
    ring

/-- Non-vacuity: the two wavelets of the library are given by coefficients, with `K ≠ 0`. -/
example : haar.Coefs ∧ haar.K ≠ 0 ∧ db2.Coefs ∧ db2.K ≠ 0 := by
  refine ⟨?_, ?_, ?_, ?_⟩
  · intro e he
    simp only [haar, List.mem_cons, List.not_mem_nil, or_false] at he
    rcases he with rfl | rfl <;> rfl
  · exact (Real.sqrt_pos.2 (by norm_num)).ne'
  · intro e he
    simp only [db2, List.mem_cons, List.not_mem_nil, or_false] at he
    rcases he with rfl | rfl | rfl <;> rfl
  · have h1 : (1 : ℝ) < Real.sqrt 3 := by rw [Real.lt_sqrt] <;> norm_num
    have h2 : (0 : ℝ) < Real.sqrt 2 := Real.sqrt_pos.2 (by norm_num)
    exact (div_pos (by linarith) h2).ne'

end Verif.Tod
