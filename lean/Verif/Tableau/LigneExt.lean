/-
The extended delay line of the pattern detector (`LigneARetardExt`), core/src/fourier/detection.cc:25-62,
and the window taken in it to estimate the noise, core/src/fourier/detection.cc:443-470.

The vectors are those of `Verif/Tableau/Model.lean` (variables, views, buffers): what matters here is
that the line keeps a view of the vectors the caller gives.
-/
import Verif.Tableau.Props
import Verif.Filtre.Lemmas

namespace Tableau
namespace LigneExt

variable {α : Type}

/-- `configure(K)`: `mem.setZero(K)`, `mem` being an empty vector before.
core/src/fourier/detection.cc:31-35, core/src/tableau.cc:790-805 -/
def configure (e : Etat α) (m K : ℕ) (zero : α) : Etat α := alloue e m K 1 (List.replicate K zero)

/-- `mem.head(k) = mem.tail(k)`.  core/src/fourier/detection.cc:46 -/
def decale (e : Etat α) (m : ℕ) (k : ℤ) : Except Faute (Etat α) :=
  match noeud e m with
  | .error f => .error f
  | .ok p =>
    match noeudSegment p 0 k with
    | .error f => .error f
    | .ok d =>
      match noeudSegment p (p.r - k) k with
      | .error f => .error f
      | .ok s => affecteVue e d s

/-- `mem.tail(n) = x`.  core/src/fourier/detection.cc:47 -/
def versQueue (e : Etat α) (m x : ℕ) (n : ℤ) : Except Faute (Etat α) :=
  match noeud e m with
  | .error f => .error f
  | .ok p => (Op.versSegment m (p.r - n) n x).fait e

/-- `step(x)`.  core/src/fourier/detection.cc:37-49 -/
def step (e : Etat α) (m K x : ℕ) : Except Faute (Etat α) :=
  match noeud e x with
  | .error f => .error f
  | .ok s =>
    if s.r = K then (Op.affecte m x).fait e
    else if K < s.r then (Op.affecteSegment m x (s.r - K) K).fait e
    else
      match decale e m (K - s.r) with
      | .error f => .error f
      | .ok e1 => versQueue e1 m x s.r

/-- The caller: for each block, a new vector variable is created and given to `step`
(core/src/fourier/detection.cc:204, 494). -/
def flux (e : Etat α) (m K : ℕ) : List (ℕ × List α) → Except Faute (Etat α)
  | [] => .ok e
  | (x, v) :: r =>
    match step (alloue e x v.length 1 v) m K x with
    | .error f => .error f
    | .ok e' => flux e' m K r

/-! ### Lemmas -/

/-- A vector variable `m`, contiguous, of content `w`, in a buffer of content `A ++ w ++ B`. -/
structure Ligne (e : Etat α) (m : ℕ) (n : Noeud) (A w B : List α) : Prop where
  var : e.vars m = some n
  bloc : n.bloc = false
  c : n.c = 1
  r : n.r = w.length
  base : n.base = A.length
  mem : e.tampons[n.tampon]? = some (some (A ++ w ++ B))

theorem lis_milieu {e : Etat α} {t : ℕ} {A w B : List α} (h : e.tampons[t]? = some (some (A ++ w ++ B))) :
    lisBloc e t A.length w.length = .ok w := by
  rw [lisBloc_of h (by simp)]
  simp

theorem Ligne.lu {e : Etat α} {m : ℕ} {n : Noeud} {A w B : List α} (h : Ligne e m n A w B) :
    lisBloc e n.tampon n.base n.r = .ok w := by
  rw [h.base, h.r]; exact lis_milieu h.mem

theorem Ligne.valeur {e : Etat α} {m : ℕ} {n : Noeud} {A w B : List α} (h : Ligne e m n A w B) : valeur e m = .ok w := by
  rw [valeur_plat h.var h.bloc, h.c, Nat.mul_one, h.lu]

theorem Ligne.tampon {e : Etat α} {m : ℕ} {n : Noeud} {A w B : List α} (h : Ligne e m n A w B) : n.tampon < e.tampons.length := by
  by_contra hc
  have := h.mem
  rw [List.getElem?_eq_none (by omega)] at this; cases this

/-- A write inside the line. -/
theorem remplace_milieu (A w B : List α) (i : ℕ) (v : List α) (h : i + v.length ≤ w.length) :
    remplace (A ++ w ++ B) (A.length + i) v = A ++ remplace w i v ++ B := by
  unfold remplace
  have e1 : (A ++ w ++ B).take (A.length + i) = A ++ w.take i := by
    rw [List.append_assoc, List.take_append, List.take_of_length_le (by omega)]
    rw [Nat.add_sub_cancel_left, List.take_append, show i - w.length = 0 by omega]; simp
  have e2 : (A ++ w ++ B).drop (A.length + i + v.length) = w.drop (i + v.length) ++ B := by
    rw [List.append_assoc, List.drop_append, List.drop_eq_nil_of_le (by omega)]
    rw [show A.length + i + v.length - A.length = i + v.length by omega, List.drop_append, show i + v.length - w.length = 0 by omega]
    simp
  rw [e1, e2]
  simp [List.append_assoc]

/-- Copy between two distinct buffers. -/
theorem memcpy_autre {e : Etat α} {td kd ts ks n : ℕ} {l v : List α} (ht : td ≠ ts)
    (hd : e.tampons[td]? = some (some l)) (hb : kd + n ≤ l.length) (hs : lisBloc e ts ks n = .ok v) :
    ∃ e', memcpy e td kd ts ks n = .ok e' ∧ e'.vars = e.vars ∧ e'.tampons[td]? = some (some (remplace l kd v)) ∧
      (∀ t, t ≠ td → e'.tampons[t]? = e.tampons[t]?) := by
  have hv : v.length = n := lisBloc_length hs
  obtain ⟨e', he'⟩ := ecritBloc_of (e := e) (k := kd) (vs := v) hd (by omega)
  have hm : memcpy e td kd ts ks n = .ok e' := by
    unfold memcpy
    rw [if_neg (fun h => ht h.1), hs]
    exact he'
  obtain ⟨l', h1, _, h3⟩ := ecritBloc_ok he'
  have hl : l' = l := by rw [hd] at h1; simpa using h1.symm
  have hs' := memcpy_seul hm
  exact ⟨e', hm, hs'.vars, by rw [h3, hl], fun t h => hs'.mem t h⟩

/-- Copy inside a buffer, without overlap. -/
theorem memcpy_meme {e : Etat α} {t kd ks n : ℕ} {l : List α} (ho : kd + n ≤ ks)
    (hd : e.tampons[t]? = some (some l)) (hb : ks + n ≤ l.length) :
    ∃ e', memcpy e t kd t ks n = .ok e' ∧ e'.vars = e.vars ∧
      e'.tampons[t]? = some (some (remplace l kd ((l.drop ks).take n))) ∧
      (∀ u, u ≠ t → e'.tampons[u]? = e.tampons[u]?) := by
  have hs := lisBloc_of hd hb
  have hv : ((l.drop ks).take n).length = n := lisBloc_length hs
  obtain ⟨e', he'⟩ := ecritBloc_of (e := e) (t := t) (k := kd) (vs := (l.drop ks).take n) hd (by omega)
  have hm : memcpy e t kd t ks n = .ok e' := by
    unfold memcpy
    rw [if_neg (by omega), hs]
    exact he'
  obtain ⟨l', h1, _, h3⟩ := ecritBloc_ok he'
  have hl : l' = l := by rw [hd] at h1; simpa using h1.symm
  have hs' := memcpy_seul hm
  exact ⟨e', hm, hs'.vars, by rw [h3, hl], fun u h => hs'.mem u h⟩

theorem remplace_tout (w v : List α) (h : v.length = w.length) : remplace w 0 v = v := by
  simp [remplace, h]

/-- Another vector variable, in another buffer, is not changed. -/
theorem Ligne.garde {e e' : Etat α} {x : ℕ} {s : Noeud} {C v D : List α} (h : Ligne e x s C v D) (hv : e'.vars x = e.vars x)
    (hm : e'.tampons[s.tampon]? = e.tampons[s.tampon]?) : Ligne e' x s C v D :=
  ⟨by rw [hv]; exact h.var, h.bloc, h.c, h.r, h.base, by rw [hm]; exact h.mem⟩

/-- `mem = x` when `mem` is a view of the same size: the elements are copied. -/
theorem copie_ref {e : Etat α} {m x : ℕ} {n s : Noeud} {A w B C v D : List α} (hm : Ligne e m n A w B) (hx : Ligne e x s C v D)
    (ht : n.tampon ≠ s.tampon) (hl : v.length = w.length) :
    ∃ e', copieNoeud e n s = .ok e' ∧ e'.vars = e.vars ∧ Ligne e' m n A v B ∧
      (∀ t, t ≠ n.tampon → e'.tampons[t]? = e.tampons[t]?) := by
  have hs : lisBloc e s.tampon s.base n.r = .ok v := by rw [hm.r, ← hl, ← hx.r]; exact hx.lu
  obtain ⟨e', h1, h2, h3, h4⟩ := memcpy_autre (kd := n.base) ht hm.mem (by rw [hm.base, hm.r]; simp) hs
  refine ⟨e', ?_, h2, ⟨by rw [h2]; exact hm.var, hm.bloc, hm.c, by rw [hm.r, hl], hm.base, ?_⟩, h4⟩
  · simp [copieNoeud, hm.bloc, hx.bloc, hm.c, h1]
  · rw [h3, hm.base]
    have := remplace_milieu A w B 0 v (by omega)
    rw [Nat.add_zero] at this
    rw [this, remplace_tout _ _ hl]

/-- The part of the effect of `step` that depends on the line being a view. -/
theorem step_court {e : Etat α} {m x : ℕ} {n s : Noeud} {A w B C v D : List α} (hm : Ligne e m n A w B) (hx : Ligne e x s C v D)
    (ht : n.tampon ≠ s.tampon) (hl : v.length < w.length) (h2 : w.length ≤ 2 * v.length) :
    ∃ e', step e m w.length x = .ok e' ∧ e'.vars = e.vars ∧ Ligne e' m n A ((w ++ v).drop v.length) B ∧
      (∀ t, t ≠ n.tampon → e'.tampons[t]? = e.tampons[t]?) := by
  have hk : ((w.length : ℤ) - (v.length : ℤ)).toNat = w.length - v.length := by omega
  obtain ⟨e1, a1, a2, a3, a4⟩ := memcpy_meme (e := e) (t := n.tampon) (kd := n.base) (ks := n.base + v.length)
    (n := w.length - v.length) (by omega) hm.mem (by rw [hm.base]; simp; omega)
  have hb : ((A ++ w ++ B).drop (n.base + v.length)).take (w.length - v.length) = w.drop v.length := by
    rw [hm.base, List.append_assoc, List.drop_append, List.drop_eq_nil_of_le (by omega), Nat.add_sub_cancel_left, List.drop_append,
      show v.length - w.length = 0 by omega]
    simp
  have hm1 : Ligne e1 m n A (remplace w 0 (w.drop v.length)) B := by
    refine ⟨by rw [a2]; exact hm.var, hm.bloc, hm.c, by rw [hm.r, remplace_length]; simp, hm.base, ?_⟩
    rw [a3, hb, hm.base]
    have := remplace_milieu A w B 0 (w.drop v.length) (by simp)
    rw [Nat.add_zero] at this
    rw [this]
  have hx1 : Ligne e1 x s C v D := hx.garde (by rw [a2]) (a4 _ (Ne.symm ht))
  have hs1 : lisBloc e1 s.tampon s.base v.length = .ok v := by rw [← hx.r]; exact hx1.lu
  have hrl : (remplace w 0 (w.drop v.length)).length = w.length := remplace_length _ _ _ (by simp)
  obtain ⟨e2, b1, b2, b3, b4⟩ := memcpy_autre (kd := n.base + (w.length - v.length)) ht hm1.mem
    (by rw [hm.base]; simp [hrl]; omega) hs1
  have hd : decale e m ((w.length : ℤ) - (v.length : ℤ)) = .ok e1 := by
    unfold decale
    rw [noeud_of hm.var]
    simp only [noeudSegment]
    rw [if_neg (by rw [hm.r]; omega), if_neg (by omega)]
    simp only
    rw [if_neg (by omega), if_neg (by rw [hm.r]; omega)]
    simp only [affecteVue, memesDims, beq_self_eq_true, Bool.and_self, if_true, copieNoeud, Bool.not_false, hk, Nat.mul_one]
    have h1 : ((n.r : ℤ) - ((w.length : ℤ) - (v.length : ℤ))).toNat = v.length := by rw [hm.r]; omega
    rw [h1]
    simpa using a1
  refine ⟨e2, ?_, by rw [b2, a2], ⟨by rw [b2, a2]; exact hm.var, hm.bloc, hm.c, by rw [hm.r]; simp, hm.base, ?_⟩, ?_⟩
  · unfold step
    rw [noeud_of hx.var]
    simp only
    rw [hx.r, if_neg (by omega), if_neg (by omega), hd]
    simp only [versQueue]
    rw [noeud_of hm1.var]
    simp only [Op.fait]
    rw [noeud_of hm1.var, noeud_of hx1.var]
    simp only [noeudSegment]
    rw [if_neg (by omega), if_neg (by rw [hm.r]; omega)]
    have h1 : ((n.r : ℤ) - (v.length : ℤ)).toNat = w.length - v.length := by rw [hm.r]; omega
    simp only [affecteVue, memesDims, hx.r, hx.c, Int.toNat_natCast, beq_self_eq_true, Bool.and_self, if_true, copieNoeud, hx.bloc,
      Bool.not_false, Nat.mul_one, h1]
    simpa using b1
  · rw [b3, hm.base, remplace_milieu _ _ _ _ _ (by rw [hrl]; omega)]
    have : remplace (remplace w 0 (w.drop v.length)) (w.length - v.length) v = (w ++ v).drop v.length := by
      unfold remplace
      simp only [List.take_zero, List.nil_append, Nat.zero_add, List.length_drop]
      rw [List.take_append, List.take_of_length_le (by simp), List.drop_append]
      rw [List.drop_append, show v.length - w.length = 0 by omega, List.drop_zero]
      have z1 : List.drop (w.length - v.length + v.length) w = [] := List.drop_eq_nil_of_le (by omega)
      have z2 : w.length - v.length - (List.drop v.length w).length = 0 := by simp
      simp [z1]
      omega
    rw [this]
  · intro t h
    rw [b4 t h, a4 t h]

/-- `x.tail(K)` as a node. -/
theorem segment_queue {e : Etat α} {x : ℕ} {s : Noeud} {C v D : List α} (hx : Ligne e x s C v D) (K : ℕ) (hK : K ≤ v.length) :
    noeudSegment s ((s.r : ℤ) - (K : ℤ)) K = .ok ⟨true, false, K, 1, s.tampon, s.base + (v.length - K), K⟩ := by
  unfold noeudSegment
  rw [if_neg (by omega), if_neg (by rw [hx.r]; omega)]
  have : ((s.r : ℤ) - (K : ℤ)).toNat = v.length - K := by rw [hx.r]; omega
  simp [this]

/-- The variable bound to `x.tail(K)`, in any variable. -/
theorem ligne_queue {e : Etat α} {x y : ℕ} {s : Noeud} {C v D : List α} (hx : Ligne e x s C v D) (K : ℕ) (hK : K ≤ v.length) :
    Ligne (lie e y ⟨true, false, K, 1, s.tampon, s.base + (v.length - K), K⟩) y ⟨true, false, K, 1, s.tampon, s.base + (v.length - K), K⟩
      (C ++ v.take (v.length - K)) (v.drop (v.length - K)) D := by
  refine ⟨by simp [lie], rfl, rfl, by simp; omega, ?_, ?_⟩
  · simp [hx.base]
  · have := hx.mem
    simp only [lie]
    rw [this]
    simp [List.append_assoc]

/-- The effect of `step` when the line is a view: its elements are overwritten where they are. -/
theorem step_ref {e : Etat α} {m x : ℕ} {n s : Noeud} {A w B C v D : List α} (hm : Ligne e m n A w B) (hx : Ligne e x s C v D)
    (hr : n.ref = true) (ht : n.tampon ≠ s.tampon) (h2 : w.length ≤ 2 * v.length) :
    ∃ e', step e m w.length x = .ok e' ∧ e'.vars = e.vars ∧ Ligne e' m n A ((w ++ v).drop v.length) B ∧
      (∀ t, t ≠ n.tampon → e'.tampons[t]? = e.tampons[t]?) := by
  by_cases hl : v.length < w.length
  · exact step_court hm hx ht hl h2
  have hd : (w ++ v).drop v.length = v.drop (v.length - w.length) := by
    rw [List.drop_append, List.drop_eq_nil_of_le (by omega), List.nil_append]
  rw [hd]
  by_cases he : v.length = w.length
  · obtain ⟨e', h1, h2, h3, h4⟩ := copie_ref hm hx ht he
    refine ⟨e', ?_, h2, by rw [he, Nat.sub_self, List.drop_zero]; exact h3, h4⟩
    unfold step
    rw [noeud_of hx.var]
    simp only
    rw [hx.r, if_pos he]
    simp only [Op.fait]
    rw [noeud_of hm.var, noeud_of hx.var]
    simp only [affecte, hr, memesDims, hm.r, hx.r, hm.c, hx.c, he, beq_self_eq_true, Bool.and_self, if_true]
    exact h1
  · have hq := ligne_queue (y := m + x + 1) hx w.length (by omega)
    obtain ⟨e0, he0⟩ : ∃ e0, e0 = lie e (m + x + 1) ⟨true, false, w.length, 1, s.tampon, s.base + (v.length - w.length), w.length⟩ := ⟨_, rfl⟩
    rw [← he0] at hq
    have hm0 : Ligne e0 m n A w B := hm.garde (by rw [he0]; simp [lie]; omega) (by rw [he0]; rfl)
    obtain ⟨e', h1, h2, h3, h4⟩ := memcpy_autre (e := e) (kd := n.base) (n := w.length) (ks := s.base + (v.length - w.length))
      (v := v.drop (v.length - w.length)) ht hm.mem (by rw [hm.base]; simp) (by
        have := hq.lu
        simp only at this
        rw [← this]
        exact lisBloc_congr (by rw [he0]; rfl))
    refine ⟨e', ?_, h2, ⟨by rw [h2]; exact hm.var, hm.bloc, hm.c, by rw [hm.r]; simp; omega, hm.base, ?_⟩, h4⟩
    · unfold step
      rw [noeud_of hx.var]
      simp only
      rw [hx.r, if_neg he, if_pos (by omega)]
      simp only [Op.fait]
      rw [noeud_of hm.var, noeud_of hx.var]
      simp only
      rw [← hx.r, segment_queue hx w.length (by omega)]
      simp only [affecteMove, hr, memesDims, hm.r, hm.c, beq_self_eq_true, Bool.and_self, if_true, copieNoeud, hm.bloc, Bool.not_false, Nat.mul_one]
      exact h1
    · rw [h3, hm.base]
      have := remplace_milieu A w B 0 (v.drop (v.length - w.length)) (by simp; omega)
      rw [Nat.add_zero] at this
      rw [this, remplace_tout _ _ (by simp; omega)]

/-- The effect of `step` in general: the line contains the last samples; no variable but the line is rebound; the buffers that are
not the one of the line are not changed. -/
theorem step_effet {e : Etat α} {m x : ℕ} {n s : Noeud} {A w B C v D : List α} (hm : Ligne e m n A w B) (hx : Ligne e x s C v D)
    (hmx : x ≠ m) (ht : n.tampon ≠ s.tampon) (h2 : w.length ≤ 2 * v.length) :
    ∃ e' n' A' B', step e m w.length x = .ok e' ∧ Ligne e' m n' A' ((w ++ v).drop v.length) B' ∧
      (∀ y, y ≠ m → e'.vars y = e.vars y) ∧
      (∀ t, t < e.tampons.length → t ≠ n.tampon → e'.tampons[t]? = e.tampons[t]?) := by
  by_cases hr : n.ref = true
  · obtain ⟨e', a1, a2, a3, a4⟩ := step_ref hm hx hr ht h2
    exact ⟨e', n, A, B, a1, a3, fun y _ => by rw [a2], fun t _ h => a4 t h⟩
  have hr' : n.ref = false := by simpa using hr
  by_cases hl : v.length < w.length
  · obtain ⟨e', a1, a2, a3, a4⟩ := step_court hm hx ht hl h2
    exact ⟨e', n, A, B, a1, a3, fun y _ => by rw [a2], fun t _ h => a4 t h⟩
  have hd : (w ++ v).drop v.length = v.drop (v.length - w.length) := by
    rw [List.drop_append, List.drop_eq_nil_of_le (by omega), List.nil_append]
  rw [hd]
  by_cases he : v.length = w.length
  · refine ⟨alloue e m s.r s.c v, ⟨false, false, s.r, s.c, e.tampons.length, 0, s.r⟩, [], [], ?_, ⟨by simp only [alloue, lie, if_true], rfl, hx.c, ?_, rfl, ?_⟩, ?_, ?_⟩
    · unfold step
      rw [noeud_of hx.var]
      simp only
      rw [hx.r, if_pos he]
      simp only [Op.fait]
      rw [noeud_of hm.var, noeud_of hx.var]
      simp only [affecte, hr', Bool.false_and, Bool.false_eq_true, if_false, clone, lisNoeud, hx.bloc]
      rw [hx.c, Nat.mul_one, hx.lu]
      simp [hx.r]
    · simp only; rw [hx.r]; simp; omega
    · simp [alloue, lie, he]
    · intro y hy
      simp [alloue, lie, hy]
    · intro t ht _
      simp [alloue, lie, List.getElem?_append_left ht]
  · have hq := ligne_queue (y := m) hx w.length (by omega)
    refine ⟨_, _, _, _, ?_, hq, ?_, fun t _ _ => rfl⟩
    · unfold step
      rw [noeud_of hx.var]
      simp only
      rw [hx.r, if_neg he, if_pos (by omega)]
      simp only [Op.fait]
      rw [noeud_of hm.var, noeud_of hx.var]
      simp only
      have hsq := segment_queue hx w.length (by omega)
      rw [hx.r] at hsq
      rw [hsq]
      simp only [affecteMove, hr', Bool.false_and, Bool.false_eq_true, if_false]
    · intro y hy
      simp [lie, hy]

end LigneExt
end Tableau
