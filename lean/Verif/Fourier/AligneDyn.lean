import Verif.Fourier.Tfr
import Mathlib.Data.List.Basic
import Mathlib.Tactic.Linarith

/-!
# C192: alignment of two streams with a variable delay (core/src/fourier/fourier.cc:1000-1124)

The samples are of any type (they are only copied).
-/

namespace Verif.AligneDyn

open Verif.Fourier

variable {T : Type}

/-! ## Model -/

/-- State of `AlignementSignal::Impl`, core/src/fourier/fourier.cc:1002-1004. -/
structure Etat (T : Type) where
  r0 : List T
  r1 : List T
  cours : ℤ
  deriving DecidableEq

/-- `configure`, core/src/fourier/fourier.cc:1013-1027. -/
def configure : Etat T := ⟨[], [], 0⟩

/-- `n[0]`, `n[1]` and the new `delais_en_cours`, core/src/fourier/fourier.cc:1055-1083. -/
def consomme (n0 cours delais : ℤ) : ℤ × ℤ × ℤ :=
  if cours < delais then
    if n0 - (delais - cours) < 0 then (n0, 0, cours + n0) else (n0, n0 - (delais - cours), delais)
  else if delais < cours then
    if n0 - (cours - delais) < 0 then (0, n0, cours - n0) else (n0 - (cours - delais), n0, delais)
  else (n0, n0, cours)

/-- Emptying of the two residues, core/src/fourier/fourier.cc:1109-1121: the remaining residues and the pairs sent to the two outputs. -/
def vidange (u v : List T) : List T × List T × List (T × T) :=
  (u.drop (min u.length v.length), v.drop (min u.length v.length), (u.take (min u.length v.length)).zip (v.take (min u.length v.length)))

/-- `step`, core/src/fourier/fourier.cc:1028-1124: new state and pairs sent to the outputs (`none`: violated assertion or segment out of range). The two output buffers, which cut the pairs in packets of `N` and give them to empty functions, are not modelled. -/
def step (s : Etat T) (x y : List T) (delais : ℤ) : Option (Etat T × List (T × T)) :=
  if y.length ≠ x.length then none else
  let n := consomme x.length s.cours delais
  (segment x (x.length - n.1).toNat n.1.toNat).bind fun u : List T =>
  (segment y (x.length - n.2.1).toNat n.2.1.toNat).map fun v : List T =>
  let w := vidange (s.r0 ++ u) (s.r1 ++ v)
  (⟨w.1, w.2.1, n.2.2⟩, w.2.2)

/-- Successive calls: final state and all the pairs sent. -/
def passe (s : Etat T) : List (List T × List T × ℤ) → Option (Etat T × List (T × T))
  | [] => some (s, [])
  | b :: l => (step s b.1 b.2.1 b.2.2).bind fun r : Etat T × List (T × T) => (passe r.1 l).map fun q : Etat T × List (T × T) => (q.1, r.2 ++ q.2)

/-! ## Specification -/

/-- The whole first stream of a history of calls. -/
def fluxX (l : List (List T × List T × ℤ)) : List T := (l.map fun b => b.1).flatten
/-- The whole second stream. -/
def fluxY (l : List (List T × List T × ℤ)) : List T := (l.map fun b => b.2.1).flatten
/-- Calls with blocks of equal sizes. -/
def Valide (l : List (List T × List T × ℤ)) : Prop := ∀ b ∈ l, b.1.length = b.2.1.length

/-! ## Proofs -/

theorem vidange_eq (u v : List T) : vidange u v = (u.drop v.length, v.drop u.length, u.zip v) := by
  unfold vidange
  rcases Nat.le_total u.length v.length with h | h
  · rw [Nat.min_eq_left h, List.take_length, List.drop_length, List.drop_of_length_le h]
    congr 2
    conv_rhs => rw [List.zip_eq_zip_take_min, Nat.min_eq_left h, List.take_length]
  · rw [Nat.min_eq_right h, List.take_length, List.drop_length, List.drop_of_length_le h]
    congr 2
    conv_rhs => rw [List.zip_eq_zip_take_min, Nat.min_eq_right h, List.take_length]

theorem zip_suite (u v u' v' : List T) : (u ++ u').zip (v ++ v') = u.zip v ++ (u.drop v.length ++ u').zip (v.drop u.length ++ v') := by
  rcases Nat.le_total u.length v.length with h | h
  · rw [List.drop_of_length_le h, List.nil_append]
    conv_lhs => rw [← List.take_append_drop u.length v, List.append_assoc]
    rw [List.zip_append (by simp [h])]
    congr 1
    rw [List.zip_eq_zip_take_min]
    conv_rhs => rw [List.zip_eq_zip_take_min]
    simp [h, List.take_take]
  · rw [List.drop_of_length_le h, List.nil_append]
    conv_lhs => rw [← List.take_append_drop v.length u, List.append_assoc]
    rw [List.zip_append (by simp [h])]
    congr 1
    rw [List.zip_eq_zip_take_min]
    conv_rhs => rw [List.zip_eq_zip_take_min]
    simp [h, List.take_take]

theorem drop_suite (u v u' v' : List T) : (u ++ u').drop (v ++ v').length = (u.drop v.length ++ u').drop (v.drop u.length ++ v').length := by
  rcases Nat.le_total u.length v.length with h | h
  · rw [List.drop_of_length_le h, List.nil_append, List.drop_append, List.drop_of_length_le (by simp; omega), List.nil_append]
    congr 1
    simp; omega
  · rw [List.drop_of_length_le h, List.nil_append, List.drop_append, List.drop_append, List.length_append]
    congr 1
    · rw [List.drop_drop]
    · congr 1
      simp; omega

/-- Number of samples skipped while going from the delay `c` to the delay `d` with `n` samples: on the second stream, on the first one. -/
def sautY (c d : ℤ) (n : ℕ) : ℕ := min (d - c).toNat n
/-- See `sautY`. -/
def sautX (c d : ℤ) (n : ℕ) : ℕ := min (c - d).toNat n

theorem step_valeur (s : Etat T) (x y : List T) (d : ℤ) (h : x.length = y.length) :
    step s x y d = some (⟨(s.r0 ++ x.drop (sautX s.cours d x.length)).drop (s.r1 ++ y.drop (sautY s.cours d x.length)).length,
      (s.r1 ++ y.drop (sautY s.cours d x.length)).drop (s.r0 ++ x.drop (sautX s.cours d x.length)).length, s.cours + sautY s.cours d x.length - sautX s.cours d x.length⟩,
      (s.r0 ++ x.drop (sautX s.cours d x.length)).zip (s.r1 ++ y.drop (sautY s.cours d x.length))) := by
  have key : ∃ a b c, consomme x.length s.cours d = (a, b, c) ∧ 0 ≤ a ∧ a ≤ x.length ∧ 0 ≤ b ∧ b ≤ x.length ∧ (x.length - a).toNat = sautX s.cours d x.length ∧ (x.length - b).toNat = sautY s.cours d x.length ∧
      c = s.cours + sautY s.cours d x.length - sautX s.cours d x.length := by
    refine ⟨(consomme x.length s.cours d).1, (consomme x.length s.cours d).2.1, (consomme x.length s.cours d).2.2, rfl, ?_⟩
    unfold consomme sautX sautY
    split_ifs <;> dsimp only <;> omega
  obtain ⟨a, b, c, e, ha, ha', hb, hb', e1, e2, e3⟩ := key
  unfold step
  rw [if_neg (by omega)]
  simp only [e]
  rw [segment, if_pos (by omega), segment, if_pos (by omega), Option.bind_some, Option.map_some, List.take_of_length_le (by rw [List.length_drop]; omega), List.take_of_length_le (by rw [List.length_drop]; omega), e1, e2, vidange_eq, e3]

/-- **C192 (constant delay).** From any state, whatever the sizes of the blocks: while the delay asked is `d`, the first samples of one of the streams are skipped until the delay in force is `d`, and then all the samples of both are used; the pairs are those of the residues followed by the streams. -/
theorem C192_constant (l : List (List T × List T × ℤ)) (d : ℤ) (hv : Valide l) (hd : ∀ b ∈ l, b.2.2 = d) (s : Etat T) (hr : s.r0 = [] ∨ s.r1 = []) :
    ∃ s', passe s l = some (s', (s.r0 ++ (fluxX l).drop (s.cours - d).toNat).zip (s.r1 ++ (fluxY l).drop (d - s.cours).toNat)) ∧
      s'.r0 = (s.r0 ++ (fluxX l).drop (s.cours - d).toNat).drop (s.r1 ++ (fluxY l).drop (d - s.cours).toNat).length ∧
      s'.r1 = (s.r1 ++ (fluxY l).drop (d - s.cours).toNat).drop (s.r0 ++ (fluxX l).drop (s.cours - d).toNat).length ∧
      (s'.r0 = [] ∨ s'.r1 = []) ∧
      s'.cours = s.cours + min (d - s.cours).toNat (fluxX l).length - min (s.cours - d).toNat (fluxX l).length := by
  induction l generalizing s with
  | nil =>
    refine ⟨s, ?_, ?_, ?_, hr, ?_⟩
    · rcases hr with h | h <;> simp [passe, fluxX, fluxY, h]
    · rcases hr with h | h <;> simp [fluxX, fluxY, h]
    · rcases hr with h | h <;> simp [fluxX, fluxY, h]
    · simp [fluxX]
  | cons b l ih =>
    obtain ⟨x, y, d'⟩ := b
    have hd' : d' = d := hd (x, y, d') (by simp)
    subst hd'
    have hxy : x.length = y.length := hv (x, y, d') (by simp)
    have e := step_valeur s x y d' hxy
    set u := x.drop (sautX s.cours d' x.length) with hu
    set v := y.drop (sautY s.cours d' x.length) with hvv
    obtain ⟨s', p, q0, q1, qr, qc⟩ := ih (fun b hb => hv b (by simp [hb])) (fun b hb => hd b (by simp [hb])) ⟨(s.r0 ++ u).drop (s.r1 ++ v).length, (s.r1 ++ v).drop (s.r0 ++ u).length, s.cours + sautY s.cours d' x.length - sautX s.cours d' x.length⟩
      (by
        rcases Nat.le_total (s.r0 ++ u).length (s.r1 ++ v).length with h | h
        · exact Or.inl (List.drop_of_length_le h)
        · exact Or.inr (List.drop_of_length_le h))
    dsimp only at p q0 q1 qc
    have fx : fluxX ((x, y, d') :: l) = x ++ fluxX l := by simp [fluxX]
    have fy : fluxY ((x, y, d') :: l) = y ++ fluxY l := by simp [fluxY]
    have ex : (x ++ fluxX l).drop (s.cours - d').toNat = u ++ (fluxX l).drop (s.cours + sautY s.cours d' x.length - sautX s.cours d' x.length - d').toNat := by
      rw [List.drop_append, hu]
      congr 1
      · unfold sautX
        rcases Nat.le_total (s.cours - d').toNat x.length with h | h
        · rw [Nat.min_eq_left h]
        · rw [Nat.min_eq_right h, List.drop_of_length_le h, List.drop_length]
      · congr 1
        unfold sautX sautY; omega
    have ey : (y ++ fluxY l).drop (d' - s.cours).toNat = v ++ (fluxY l).drop (d' - (s.cours + sautY s.cours d' x.length - sautX s.cours d' x.length)).toNat := by
      rw [List.drop_append, hvv]
      congr 1
      · unfold sautY
        rcases Nat.le_total (d' - s.cours).toNat x.length with h | h
        · rw [Nat.min_eq_left h]
        · rw [Nat.min_eq_right h, List.drop_of_length_le (by omega), List.drop_of_length_le (by omega)]
      · congr 1
        unfold sautX sautY; omega
    refine ⟨s', ?_, ?_, ?_, qr, ?_⟩
    · rw [passe, e, Option.bind_some]
      dsimp only
      rw [p, Option.map_some, fx, fy, ex, ey, ← List.append_assoc, ← List.append_assoc, zip_suite (s.r0 ++ u)]
    · rw [q0, fx, fy, ex, ey, ← List.append_assoc, ← List.append_assoc, drop_suite (s.r0 ++ u)]
    · rw [q1, fx, fy, ex, ey, ← List.append_assoc, ← List.append_assoc, drop_suite (s.r1 ++ v)]
    · rw [qc, fx, List.length_append]
      unfold sautX sautY
      omega

/-- **C192 (alignment).** After `configure`, with a constant delay `d ≥ 0` and blocks of any sizes, the pairs sent are `(x(k), y(k + d))`, each one once and in order; with a negative delay they are `(x(k + |d|), y(k))`. -/
theorem C192_aligne (l : List (List T × List T × ℤ)) (d : ℤ) (hv : Valide l) (hd : ∀ b ∈ l, b.2.2 = d) :
    ∃ s, passe configure l = some (s, ((fluxX l).drop (-d).toNat).zip ((fluxY l).drop d.toNat)) := by
  obtain ⟨s', p, -⟩ := C192_constant l d hv hd configure (Or.inl rfl)
  refine ⟨s', ?_⟩
  simpa [configure] using p

/-- **C192 (invariant).** After any history, with any delays: at most one residue is not empty and the difference of their sizes is the delay in force; the samples sent and the residue are taken in order and once from each stream. -/
theorem C192_invariant (l : List (List T × List T × ℤ)) (hv : Valide l) :
    ∃ s p, passe configure l = some (s, p) ∧ (s.r0 = [] ∨ s.r1 = []) ∧ (s.r0.length : ℤ) - s.r1.length = s.cours ∧
      (p.map Prod.fst ++ s.r0).Sublist (fluxX l) ∧ (p.map Prod.snd ++ s.r1).Sublist (fluxY l) := by
  have key : ∀ (l : List (List T × List T × ℤ)) (s : Etat T), Valide l → (s.r0 = [] ∨ s.r1 = []) → (s.r0.length : ℤ) - s.r1.length = s.cours →
      ∃ s' p, passe s l = some (s', p) ∧ (s'.r0 = [] ∨ s'.r1 = []) ∧ (s'.r0.length : ℤ) - s'.r1.length = s'.cours ∧
      (p.map Prod.fst ++ s'.r0).Sublist (s.r0 ++ fluxX l) ∧ (p.map Prod.snd ++ s'.r1).Sublist (s.r1 ++ fluxY l) := by
    intro l
    induction l with
    | nil => intro s _ hr hc; exact ⟨s, [], rfl, hr, hc, by simp [fluxX], by simp [fluxY]⟩
    | cons b l ih =>
      intro s hv hr hc
      obtain ⟨x, y, d⟩ := b
      have hxy : x.length = y.length := hv (x, y, d) (by simp)
      have e := step_valeur s x y d hxy
      set u := x.drop (sautX s.cours d x.length) with hu
      set v := y.drop (sautY s.cours d x.length) with hvv
      have lu : u.length = x.length - sautX s.cours d x.length := by rw [hu, List.length_drop]
      have lv : v.length = x.length - sautY s.cours d x.length := by rw [hvv, List.length_drop, ← hxy]
      have b1 : sautX s.cours d x.length ≤ x.length := Nat.min_le_right _ _
      have b2 : sautY s.cours d x.length ≤ x.length := Nat.min_le_right _ _
      obtain ⟨s', p, q, q1, q2, q3, q4⟩ := ih ⟨(s.r0 ++ u).drop (s.r1 ++ v).length, (s.r1 ++ v).drop (s.r0 ++ u).length, s.cours + sautY s.cours d x.length - sautX s.cours d x.length⟩ (fun b hb => hv b (by simp [hb]))
        (by
          rcases Nat.le_total (s.r0 ++ u).length (s.r1 ++ v).length with h | h
          · exact Or.inl (List.drop_of_length_le h)
          · exact Or.inr (List.drop_of_length_le h))
        (by
          dsimp only
          simp only [List.length_drop, List.length_append]
          omega)
      dsimp only at q3 q4
      have fx : fluxX ((x, y, d) :: l) = x ++ fluxX l := by simp [fluxX]
      have fy : fluxY ((x, y, d) :: l) = y ++ fluxY l := by simp [fluxY]
      have z1 : ∀ a c : List T, (a.zip c).map Prod.fst ++ a.drop c.length = a := by
        intro a c
        rcases Nat.le_total a.length c.length with h | h
        · rw [List.map_fst_zip h, List.drop_of_length_le h, List.append_nil]
        · have e : a.zip c = (a.take c.length).zip c := by conv_lhs => rw [List.zip_eq_zip_take_min, Nat.min_eq_right h, List.take_length]
          rw [e, List.map_fst_zip (by simp), List.take_append_drop]
      have z2 : ∀ a c : List T, (a.zip c).map Prod.snd ++ c.drop a.length = c := by
        intro a c
        rcases Nat.le_total c.length a.length with h | h
        · rw [List.map_snd_zip h, List.drop_of_length_le h, List.append_nil]
        · have e : a.zip c = a.zip (c.take a.length) := by conv_lhs => rw [List.zip_eq_zip_take_min, Nat.min_eq_left h, List.take_length]
          rw [e, List.map_snd_zip (by simp), List.take_append_drop]
      refine ⟨s', _, by rw [passe, e, Option.bind_some, q, Option.map_some], q1, q2, ?_, ?_⟩
      · rw [List.map_append, List.append_assoc, fx]
        refine (List.Sublist.append_left q3 _).trans ?_
        rw [← List.append_assoc, z1, List.append_assoc]
        exact List.Sublist.append_left (List.Sublist.append_right (List.drop_sublist _ _) _) _
      · rw [List.map_append, List.append_assoc, fy]
        refine (List.Sublist.append_left q4 _).trans ?_
        rw [← List.append_assoc, z2, List.append_assoc]
        exact List.Sublist.append_left (List.Sublist.append_right (List.drop_sublist _ _) _) _
  obtain ⟨s, p, a, b, c, d, e⟩ := key l configure hv (Or.inl rfl) rfl
  exact ⟨s, p, a, b, c, by simpa [configure] using d, by simpa [configure] using e⟩

/-- **C192 (change of delay).** When the delay in force is already the one asked, no sample is skipped: the streams go on as they are. -/
theorem C192_regime (l : List (List T × List T × ℤ)) (s : Etat T) (hv : Valide l) (hd : ∀ b ∈ l, b.2.2 = s.cours) (hr : s.r0 = [] ∨ s.r1 = []) :
    ∃ s', passe s l = some (s', (s.r0 ++ fluxX l).zip (s.r1 ++ fluxY l)) ∧ s'.cours = s.cours := by
  obtain ⟨s', p, -, -, -, c⟩ := C192_constant l s.cours hv hd s hr
  refine ⟨s', by simpa using p, by simpa using c⟩

example : passe (configure : Etat ℕ) [([1, 2], [11, 12], 3), ([3, 4, 5], [13, 14, 15], 3)] = some (⟨[3, 4, 5], [], 3⟩, [(1, 14), (2, 15)]) := by decide +kernel
example : Valide [([1, 2], [11, 12], (3 : ℤ)), ([3, 4, 5], [13, 14, 15], 3)] := by intro b hb; simp at hb; rcases hb with rfl | rfl <;> rfl

end Verif.AligneDyn
