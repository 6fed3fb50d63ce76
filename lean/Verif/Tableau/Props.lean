/-
C36  Views alias, copies do not.
C61  conservativeResize.
C62  int_expr.
-/
import Verif.Tableau.Lemmas

namespace Tableau

variable {α : Type}

/-! ### Isolation of copies -/

/-- The variables of `A` share no buffer with the others. -/
def Separe (e : Etat α) (A : ℕ → Prop) : Prop :=
  ∀ x y n m, A x → ¬ A y → e.vars x = some n → e.vars y = some m → n.tampon ≠ m.tampon

/-- The program mentions only variables of `A`. -/
def Confine (A : ℕ → Prop) (p : List (Op α)) : Prop := ∀ o ∈ p, ∀ x ∈ o.mentionne, A x

theorem isole_un {e e' : Etat α} (A : ℕ → Prop) (o : Op α) (hv : Valide e) (hs : Separe e A)
    (hc : ∀ x ∈ o.mentionne, A x) (h : o.fait e = .ok e') :
    Valide e' ∧ Separe e' A ∧
      ∀ y, ¬ A y → e'.vars y = e.vars y ∧ valeur e' y = valeur e y := by
  have hp := fait_pas o h
  have hvars : ∀ y, ¬ A y → e'.vars y = e.vars y := by
    intro y hy
    apply hp.vars
    intro hcc
    apply hy
    apply hc
    cases o <;> simp [Op.cible] at hcc <;> simp [Op.mentionne, hcc]
  have hmem : ∀ y m, ¬ A y → e.vars y = some m → e'.tampons[m.tampon]? = e.tampons[m.tampon]? := by
    intro y m hy hm
    refine hp.mem _ (hv y m hm) ?_
    intro x hx n hn
    exact hs x y n m (hc x hx) hy hn hm
  refine ⟨hp.valide hv, ?_, ?_⟩
  · intro x y n m hx hy hxn hym
    rw [hvars y hy] at hym
    rcases hp.cible x n hxn with h1 | ⟨-, h1 | ⟨z, hz, k, hk, h1⟩⟩
    · exact hs x y n m hx hy h1 hym
    · have := hv y m hym; omega
    · rw [h1]; exact hs z y k m (hc z hz) hy hk hym
  · intro y hy
    refine ⟨hvars y hy, ?_⟩
    unfold valeur noeud
    rw [hvars y hy]
    cases hm : e.vars y with
    | none => rfl
    | some m => exact lisNoeud_congr (hmem y m hy hm)

/-- **C36 (isolation).**  If a group of variables shares no buffer with the others, a program that
mentions only variables of the group — declarations, copies, views, assignments, writes, resizes, in
any number and order — leaves every other variable bound as it was and with the same value. -/
theorem C36_isolation (A : ℕ → Prop) (p : List (Op α)) (e e' : Etat α) (hv : Valide e)
    (hs : Separe e A) (hc : Confine A p) (h : execute e p = .ok e') :
    Valide e' ∧ Separe e' A ∧
      ∀ y, ¬ A y → e'.vars y = e.vars y ∧ valeur e' y = valeur e y := by
  induction p generalizing e with
  | nil =>
    simp only [execute, Except.ok.injEq] at h; subst h
    exact ⟨hv, hs, fun _ _ => ⟨rfl, rfl⟩⟩
  | cons o q ih =>
    unfold execute at h
    split at h
    · rename_i e1 h1
      obtain ⟨h2, h3, h4⟩ := isole_un A o hv hs (hc o (by simp)) h1
      obtain ⟨h5, h6, h7⟩ := ih e1 h2 h3 (fun o' ho' => hc o' (by simp [ho'])) h
      exact ⟨h5, h6, fun y hy => ⟨(h7 y hy).1.trans (h4 y hy).1, (h7 y hy).2.trans (h4 y hy).2⟩⟩
    · cases h

theorem lisBloc_length {e : Etat α} {t k n : ℕ} {w : List α} (h : lisBloc e t k n = .ok w) :
    w.length = n := by
  obtain ⟨l, -, h2, rfl⟩ := lisBloc_ok h
  simp; omega

theorem lisCols_length {e : Etat α} {n : Noeud} {k j : ℕ} {w : List α}
    (h : lisCols e n k j = .ok w) : w.length = n.r * k := by
  induction k generalizing j w with
  | zero => simp only [lisCols, Except.ok.injEq] at h; subst h; rfl
  | succ k ih =>
    unfold lisCols at h
    split at h
    · cases h
    · rename_i v hv
      split at h
      · cases h
      · rename_i u hu
        cases h
        rw [List.length_append, lisBloc_length hv, ih hu]; ring

theorem lisNoeud_length {e : Etat α} {n : Noeud} {w : List α} (h : lisNoeud e n = .ok w) :
    w.length = n.r * n.c := by
  unfold lisNoeud at h
  split at h
  · exact lisCols_length h
  · exact lisBloc_length h

/-- A variable just cloned. -/
theorem clone_valeur {e e' : Etat α} {x : ℕ} {n : Noeud} (h : clone e x n = .ok e') :
    ∃ w, lisNoeud e n = .ok w ∧ valeur e' x = .ok w ∧
      e'.vars x = some ⟨false, false, n.r, n.c, e.tampons.length, 0, n.r⟩ := by
  unfold clone at h
  split at h
  · rename_i w hw
    cases h
    refine ⟨w, hw, ?_, by simp [alloue, lie]⟩
    have hl := lisNoeud_length hw
    simp [valeur, noeud, alloue, lie, lisNoeud, lisBloc, hl, List.take_of_length_le]
  · cases h

theorem clone_separe {e e' : Etat α} {x : ℕ} {n : Noeud} (hv : Valide e)
    (h : clone e x n = .ok e') :
    Separe e' (fun z => z = x) ∧ Separe e' (fun z => z ≠ x) ∧ Valide e' ∧
      (∀ y, y ≠ x → valeur e' y = valeur e y) := by
  obtain ⟨w, hw, hval, hx⟩ := clone_valeur h
  have hp : Pas e e' [x] (some x) := clone_pas (by simp) h
  have hother : ∀ y m, y ≠ x → e'.vars y = some m → m.tampon < e.tampons.length := by
    intro y m hy hm
    rw [hp.vars y (fun hc => hy (Option.some.inj hc).symm)] at hm
    exact hv y m hm
  have key : ∀ y n m, y ≠ x → e'.vars x = some n → e'.vars y = some m → n.tampon ≠ m.tampon := by
    intro y n m hy hn hm
    rw [hx] at hn
    have := Option.some.inj hn
    subst this
    have := hother y m hy hm
    simp only; omega
  refine ⟨?_, ?_, hp.valide hv, ?_⟩
  · rintro a y n m rfl hy hn hm
    exact key y n m hy hn hm
  · intro a y n m ha hy hn hm
    have hy' : y = x := Classical.not_not.1 hy
    subst hy'
    exact (key a m n ha hm hn).symm
  · intro y hy
    unfold clone at h
    split at h
    · cases h
      unfold valeur noeud
      have hvy : (alloue e x n.r n.c ‹List α›).vars y = e.vars y := by simp [alloue, lie, hy]
      rw [hvy]
      cases hm : e.vars y with
      | none => rfl
      | some m =>
        apply lisNoeud_congr
        simp [alloue, lie, List.getElem?_append_left (hv y m hm)]
    · cases h

/-- **C36 (copies are independent).**  After `x = copy of y`, whatever is then done that does not
mention `x` — on `y`, on views of it, on anything else — `x` keeps the value `y` had; and whatever is
done to `x` alone leaves every other variable, `y` included, as it was. -/
theorem C36_copie_independante (e e1 e2 : Etat α) (x y : ℕ) (p : List (Op α))
    (hv : Valide e) (h1 : execute e [.copie x y] = .ok e1) (h2 : execute e1 p = .ok e2) :
    valeur e1 x = valeur e y ∧
    (Confine (fun z => z ≠ x) p → valeur e2 x = valeur e y) ∧
    (Confine (fun z => z = x) p → ∀ z, z ≠ x → valeur e2 z = valeur e z) := by
  unfold execute at h1
  split at h1
  · rename_i e0 h0
    simp only [execute, Except.ok.injEq] at h1; subst h1
    simp only [Op.fait] at h0
    split at h0
    · rename_i n hn
      obtain ⟨w, hw, hval, -⟩ := clone_valeur h0
      obtain ⟨hs1, hs2, hv', hoth⟩ := clone_separe hv h0
      have hy : valeur e y = .ok w := by unfold valeur; rw [hn]; exact hw
      refine ⟨by rw [hval, hy], ?_, ?_⟩
      · intro hc
        obtain ⟨-, -, h5⟩ := C36_isolation _ p _ e2 hv' hs2 hc h2
        rw [(h5 x (by simp)).2, hval, hy]
      · intro hc z hz
        obtain ⟨-, -, h5⟩ := C36_isolation _ p _ e2 hv' hs1 hc h2
        rw [(h5 z hz).2, hoth z hz]
    · cases h0
  · cases h1

/-! ### Views -/

/-- No statement of the program declares, assigns as a whole or resizes `x`. -/
def Stable (x : ℕ) (p : List (Op α)) : Prop := ∀ o ∈ p, o.cible ≠ some x

theorem stable_vars {e e' : Etat α} (x : ℕ) (p : List (Op α)) (hs : Stable x p)
    (h : execute e p = .ok e') : e'.vars x = e.vars x := by
  induction p generalizing e with
  | nil => simp only [execute, Except.ok.injEq] at h; subst h; rfl
  | cons o q ih =>
    unfold execute at h
    split at h
    · rename_i e1 h1
      rw [ih (fun o' ho' => hs o' (by simp [ho'])) h, (fait_pas o h1).vars x (hs o (by simp))]
    · cases h

/-- A vector variable: one column, contiguous. -/
def Vecteur (e : Etat α) (x : ℕ) : Prop := ∃ n, e.vars x = some n ∧ n.c = 1 ∧ n.bloc = false

/-- A matrix variable that is not itself a block view. -/
def Matrice (e : Etat α) (x r c : ℕ) : Prop :=
  ∃ n, e.vars x = some n ∧ n.r = r ∧ n.c = c ∧ n.ld = r ∧ n.bloc = false

theorem take_drop_take (l : List α) (b r i n : ℕ) (h : i + n ≤ r) :
    (((l.drop b).take r).drop i).take n = (l.drop (b + i)).take n := by
  rw [List.drop_take, List.take_take, List.drop_drop, Nat.min_eq_left (by omega)]

/-- **C36 (segments alias).**  After `x = y.segment(i0, n)` (initialisation), and after any later
program that does not declare, assign as a whole or resize `x` or `y` — it may write in them, in other
views, in parents — the elements of `x` are at every moment the elements `i0 … i0+n-1` of `y`. -/
theorem C36_segment_alias (e e' : Etat α) (x y : ℕ) (hxy : x ≠ y) (i0 n : ℤ) (p : List (Op α))
    (hy : Vecteur e y) (hsx : Stable x p) (hsy : Stable y p)
    (h : execute e (.segment x y i0 n :: p) = .ok e') (w : List α) (hw : valeur e' y = .ok w) :
    valeur e' x = .ok ((w.drop i0.toNat).take n.toNat) ∧ 0 ≤ i0 ∧ 0 ≤ n ∧ i0 + n ≤ w.length := by
  obtain ⟨ny, hny, hc, hb⟩ := hy
  unfold execute at h
  simp only [Op.fait, noeud_of hny] at h
  unfold noeudSegment at h
  split at h
  · rename_i e1 h1
    split at h1
    · rename_i s hs
      split at hs
      · cases hs
      · rename_i hle
        split at hs
        · cases hs
        · rename_i hpos
          cases hs
          cases h1
          have hvx := stable_vars x p hsx h
          have hvy := stable_vars y p hsy h
          simp only [lie, if_true] at hvx
          simp only [lie, if_neg (Ne.symm hxy), hny] at hvy
          unfold valeur at hw ⊢
          rw [noeud_of hvy] at hw
          rw [noeud_of hvx]
          simp only [lisNoeud, hb, Bool.false_eq_true, if_false, hc, Nat.mul_one] at hw ⊢
          obtain ⟨l, h1, h2, h3⟩ := lisBloc_ok hw
          have hbound : i0.toNat + n.toNat ≤ ny.r := by omega
          rw [lisBloc_of h1 (by omega), h3, take_drop_take _ _ _ _ _ hbound]
          refine ⟨rfl, by omega, by omega, ?_⟩
          simp; omega
    · cases h1
  · cases h

/-- **C36 (bounds of a segment).**  With a non-negative position and size, `segment` raises an
exception exactly when the segment exceeds the vector. -/
theorem C36_segment_bornes (e : Etat α) (x y : ℕ) (i0 n : ℕ) (ny : Noeud)
    (hny : e.vars y = some ny) :
    ((Op.segment x y i0 n).fait e = .error .exception ↔ ny.r < i0 + n) ∧
    ((∃ e', (Op.segment x y i0 n).fait e = .ok e') ↔ i0 + n ≤ ny.r) := by
  simp only [Op.fait, noeud_of hny, noeudSegment]
  by_cases h : ny.r < i0 + n
  · rw [if_pos (by omega)]
    simp [h]
  · rw [if_neg (by omega), if_neg (by omega)]
    simp [h]; omega

/-- **C36 refuted (negative position).**  `segment(-1, 2)` of a vector of 3 elements is not
rejected: it designates memory outside the vector. -/
theorem C36_segment_negatif_refute (v : α) :
    execute (α := α) ⟨[], fun _ => none⟩ [.cree 0 3 1 [v, v, v], .segment 1 0 (-1) 2]
      = .error .indefini := by
  rfl

/-- The value of a non-block variable, as a function of the memory. -/
theorem valeur_plat {e : Etat α} {x : ℕ} {n : Noeud} (hn : e.vars x = some n) (hb : n.bloc = false) :
    valeur e x = lisBloc e n.tampon n.base (n.r * n.c) := by
  unfold valeur; rw [noeud_of hn]; simp [lisNoeud, hb]

/-- **C36 (a write changes exactly one cell).**  After `x(i, j) = v`, in every variable that is not a
block view, an element is `v` if it is the very cell designated — same buffer, same address — and
unchanged otherwise. -/
theorem C36_pose_exact (e e' : Etat α) (x i j : ℕ) (v : α) (nx : Noeud) (hx : e.vars x = some nx)
    (h : (Op.pose x i j v).fait e = .ok e') (z : ℕ) (nz : Noeud) (hz : e.vars z = some nz)
    (hb : nz.bloc = false) (w : List α) (hw : valeur e z = .ok w) :
    ∃ w', valeur e' z = .ok w' ∧ w'.length = w.length ∧ ∀ k, k < w.length →
      w'[k]? = if nz.tampon = nx.tampon ∧ nz.base + k = nx.base + i + j * nx.r then some v
        else w[k]? := by
  simp only [Op.fait, noeud_of hx, pose] at h
  have hs := ecritBloc_seul h
  have hz' : e'.vars z = some nz := by rw [hs.vars]; exact hz
  rw [valeur_plat hz hb] at hw
  obtain ⟨lz, hl1, hl2, hl3⟩ := lisBloc_ok hw
  rw [valeur_plat hz' hb]
  by_cases ht : nz.tampon = nx.tampon
  · obtain ⟨l, h1, h2, h3⟩ := ecritBloc_ok h
    rw [← ht] at h1 h3
    rw [hl1] at h1
    have : lz = l := by simpa using h1
    subst this
    have hlen := remplace_length lz _ _ h2
    refine ⟨_, lisBloc_of h3 (by rw [hlen]; exact hl2), by rw [hl3]; simp [hlen], ?_⟩
    intro k hk
    have hk' : k < nz.r * nz.c := by rw [hl3] at hk; simp at hk; omega
    rw [hl3, List.getElem?_take_of_lt hk', List.getElem?_take_of_lt hk', List.getElem?_drop,
      List.getElem?_drop, getElem?_remplace _ _ _ h2]
    by_cases hc : nz.base + k = nx.base + i + j * nx.r
    · rw [if_pos (by simp; omega), if_pos ⟨ht, hc⟩, hc]; simp
    · rw [if_neg (by simp; omega), if_neg (fun h => hc h.2)]
  · have h3 : e'.tampons[nz.tampon]? = some (some lz) := by rw [hs.mem _ ht]; exact hl1
    refine ⟨w, by rw [lisBloc_of h3 hl2, hl3], rfl, ?_⟩
    intro k _
    rw [if_neg (fun h => ht h.1)]

/-- **C36 (writing in a vector).**  `x(i) = v` replaces element `i` of `x`. -/
theorem C36_pose_vecteur (e e' : Etat α) (x i : ℕ) (v : α) (hx : Vecteur e x)
    (w : List α) (hw : valeur e x = .ok w)
    (h : (Op.pose x i 0 v).fait e = .ok e') : valeur e' x = .ok (w.set i v) := by
  obtain ⟨n, hn, hc, hb⟩ := hx
  obtain ⟨w', h1, h2, h3⟩ := C36_pose_exact e e' x i 0 v n hn h x n hn hb w hw
  rw [h1]
  congr 1
  apply List.ext_getElem?
  intro k
  by_cases hk : k < w.length
  · rw [h3 k hk, List.getElem?_set]
    by_cases hc : i = k
    · subst hc; simp [hk]
    · rw [if_neg (by omega), if_neg (by omega)]
  · rw [List.getElem?_eq_none (by omega), List.getElem?_eq_none (by simp; omega)]

/-- **C36 (assignment to a segment).**  `x.segment(i0, n) = y`, `y` having `n` elements, replaces
exactly the elements `i0 … i0+n-1` of `x`. -/
theorem C36_versSegment (e e' : Etat α) (x y : ℕ) (i0 : ℕ) (hx : Vecteur e x) (hy : Vecteur e y)
    (w u : List α) (hw : valeur e x = .ok w) (hu : valeur e y = .ok u)
    (h : (Op.versSegment x i0 u.length y).fait e = .ok e') :
    valeur e' x = .ok (w.take i0 ++ u ++ w.drop (i0 + u.length)) := by
  obtain ⟨nx, hnx, hcx, hbx⟩ := hx
  obtain ⟨ny, hny, hcy, hby⟩ := hy
  simp only [Op.fait, noeud_of hnx, noeud_of hny] at h
  rw [valeur_plat hnx hbx] at hw
  rw [valeur_plat hny hby] at hu
  have hry : ny.r = u.length := by have := lisBloc_length hu; rw [hcy] at this; omega
  unfold noeudSegment at h
  split at h
  · rename_i d hd
    split at hd
    · cases hd
    · rename_i hle
      rw [if_neg (by omega)] at hd
      cases hd
      simp only [affecteVue, memesDims, Int.toNat_natCast, hry, hcy, beq_self_eq_true,
        Bool.and_self, if_true, copieNoeud, hby, Bool.not_false] at h
      have hs := memcpy_seul h
      obtain ⟨vs, h1, h2⟩ := memcpy_ok h
      have hvs : vs = u := by
        rw [hcy, hry] at hu
        rw [hu] at h1; cases h1; rfl
      subst hvs
      obtain ⟨l, h3, h4, h5⟩ := ecritBloc_ok h2
      obtain ⟨lw, h6, h7, h8⟩ := lisBloc_ok hw
      rw [h3] at h6
      have : l = lw := by simpa using h6
      subst this
      have hx' : e'.vars x = some nx := by rw [hs.vars]; exact hnx
      rw [valeur_plat hx' hbx, lisBloc_of h5 (by rw [remplace_length _ _ _ h4]; exact h7),
        fenetre_remplace _ _ _ _ _ (by omega) (by rw [hcx]; omega) h7, ← h8]
      have : nx.base + i0 - nx.base = i0 := by omega
      rw [this]; rfl
  · cases h

/-- Non-vacuity of the theorems on segments: a program with views, copies and writes. -/
example : (execute (α := ℤ) ⟨[], fun _ => none⟩
    [.cree 0 5 1 [1, 2, 3, 4, 5], .copie 1 0, .segment 2 0 1 3, .pose 2 0 0 9,
      .cree 3 2 1 [7, 8], .versSegment 0 3 2 3]).map (fun e => (valeur e 0, valeur e 1, valeur e 2))
    = .ok (.ok [1, 9, 3, 7, 8], .ok [1, 2, 3, 4, 5], .ok [9, 3, 7]) := by decide

/-! ### Where assignment departs from the English property -/

/-- **C36 refuted (assignment of a segment to an ordinary vector).**  After `y = x.head(n)`, `y` being
a vector declared before, `y` is not a copy: writing in `y` modifies `x`. -/
theorem C36_affecte_alias_refute (a b c v z : α) :
    (execute ⟨[], fun _ => none⟩
      [.cree 0 3 1 [a, b, c], .cree 1 1 1 [z], .affecteSegment 1 0 0 2, .pose 1 0 0 v]).map
        (fun e => valeur e 0)
    = .ok (.ok [v, b, c]) := by rfl

/-- …and so does a later assignment `y = t` of a vector of the same size. -/
theorem C36_affecte_suite_refute (a b c d f z : α) :
    (execute ⟨[], fun _ => none⟩
      [.cree 0 3 1 [a, b, c], .cree 1 1 1 [z], .affecteSegment 1 0 0 2,
        .cree 2 2 1 [d, f], .affecte 1 2]).map (fun e => valeur e 0)
    = .ok (.ok [d, f, c]) := by rfl

/-- **C36 refuted (sizes).**  `x.segment(0, 2) = y` with `y` of 3 elements raises no error and writes
nothing. -/
theorem C36_taille_refute (a b c d f g : α) :
    (execute ⟨[], fun _ => none⟩
      [.cree 0 3 1 [a, b, c], .cree 1 3 1 [d, f, g], .versSegment 0 0 2 1]).map
        (fun e => valeur e 0)
    = .ok (.ok [a, b, c]) := by rfl

/-- **C36 refuted (overlap).**  `x.segment(1, 2) = x.segment(0, 2)` is a `memcpy` between overlapping
zones. -/
theorem C36_recouvrement_refute (a b c : α) :
    (execute ⟨[], fun _ => none⟩
      [.cree 0 3 1 [a, b, c], .segment 1 0 0 2, .versSegment 0 1 2 1]).map
        (fun e => valeur e 0)
    = .error .indefini := by rfl

/-- **C36 refuted (resize).**  After `y = x.segment(0, 2)` and `x.resize(5)`, `y` designates freed
memory. -/
theorem C36_resize_refute (a b c z : α) :
    (execute ⟨[], fun _ => none⟩
      [.cree 0 3 1 [a, b, c], .segment 1 0 0 2, .resize 0 5 1 [z, z, z, z, z]]).map
        (fun e => valeur e 1)
    = .ok (.error .indefini) := by rfl

/-! ### Columns -/

theorem noeudCol_ok {p s : Noeud} {j : ℕ} (h : noeudCol p j = .ok s) :
    j ≤ p.c ∧ s = ⟨true, false, p.r, 1, p.tampon, p.base + j * p.ld, p.r⟩ := by
  unfold noeudCol at h
  split at h
  · cases h
  · cases h; exact ⟨by omega, rfl⟩

/-- **C36 (assignment to a column).**  `x.col(j) = y` replaces exactly column `j` of the matrix. -/
theorem C36_versCol (e e' : Etat α) (x y r c j : ℕ) (hx : Matrice e x r c) (hy : Vecteur e y)
    (hj : j < c) (w u : List α) (hw : valeur e x = .ok w) (hu : valeur e y = .ok u)
    (hul : u.length = r) (h : (Op.versCol x j y).fait e = .ok e') :
    valeur e' x = .ok (w.take (j * r) ++ u ++ w.drop (j * r + r)) := by
  obtain ⟨nx, hnx, hrx, hcx, hldx, hbx⟩ := hx
  obtain ⟨ny, hny, hcy, hby⟩ := hy
  simp only [Op.fait, noeud_of hnx, noeud_of hny] at h
  rw [valeur_plat hnx hbx] at hw
  rw [valeur_plat hny hby] at hu
  have hry : ny.r = r := by have := lisBloc_length hu; rw [hcy] at this; omega
  split at h
  · rename_i d hd
    obtain ⟨-, rfl⟩ := noeudCol_ok hd
    simp only [affecteVue, memesDims, hrx, hry, hcy, beq_self_eq_true, Bool.and_self, if_true,
      copieNoeud, hby, Bool.not_false, hldx] at h
    have hs := memcpy_seul h
    obtain ⟨vs, h1, h2⟩ := memcpy_ok h
    have hvs : vs = u := by
      rw [hcy, hry] at hu
      rw [hu] at h1; cases h1; rfl
    subst hvs
    obtain ⟨l, h3, h4, h5⟩ := ecritBloc_ok h2
    obtain ⟨lw, h6, h7, h8⟩ := lisBloc_ok hw
    rw [h3] at h6
    have : l = lw := by simpa using h6
    subst this
    have hx' : e'.vars x = some nx := by rw [hs.vars]; exact hnx
    have hjr : j * r + r ≤ nx.r * nx.c := by
      rw [hrx, hcx]
      calc j * r + r = r * (j + 1) := by ring
        _ ≤ r * c := Nat.mul_le_mul_left r hj
    rw [valeur_plat hx' hbx, lisBloc_of h5 (by rw [remplace_length _ _ _ h4]; exact h7),
      fenetre_remplace _ _ _ _ _ (by omega) (by omega) h7, ← h8]
    have e1 : nx.base + j * r - nx.base = j * r := by omega
    rw [e1]; unfold remplace; rw [hul]
  · cases h

/-- **C36 (columns alias).** -/
theorem C36_col_alias (e e' : Etat α) (x y r c j : ℕ) (hxy : x ≠ y) (p : List (Op α))
    (hy : Matrice e y r c) (hj : j < c) (hsx : Stable x p) (hsy : Stable y p)
    (h : execute e (.col x y j :: p) = .ok e') (w : List α) (hw : valeur e' y = .ok w) :
    valeur e' x = .ok ((w.drop (j * r)).take r) := by
  obtain ⟨ny, hny, hr, hc, hld, hb⟩ := hy
  unfold execute at h
  simp only [Op.fait, noeud_of hny] at h
  split at h
  · rename_i e1 h1
    split at h1
    · rename_i s hs
      obtain ⟨-, rfl⟩ := noeudCol_ok hs
      cases h1
      have hvx := stable_vars x p hsx h
      have hvy := stable_vars y p hsy h
      simp only [lie, if_true] at hvx
      simp only [lie, if_neg (Ne.symm hxy), hny] at hvy
      rw [valeur_plat hvy hb] at hw
      rw [valeur_plat hvx rfl]
      obtain ⟨l, h1, h2, h3⟩ := lisBloc_ok hw
      simp only [Nat.mul_one, hr, hc, hld] at h2 h3 ⊢
      have hjr : j * r + r ≤ r * c := by
        calc j * r + r = r * (j + 1) := by ring
          _ ≤ r * c := Nat.mul_le_mul_left r hj
      rw [lisBloc_of h1 (by omega), h3, take_drop_take _ _ _ _ _ hjr]
    · cases h1
  · cases h

/-- **C36 refuted (bound of `col`).**  `col(c)` of a matrix of `c` columns is accepted; it designates
memory beyond the matrix. -/
theorem C36_col_borne_refute (a b c d : α) :
    (execute ⟨[], fun _ => none⟩ [.cree 0 2 2 [a, b, c, d], .col 1 0 2]).map (fun e => valeur e 1)
    = .ok (.error .indefini) := by rfl

/-! ### Blocks -/

theorem lisCols_lire {e : Etat α} {n : Noeud} {l : List α} (hl : e.tampons[n.tampon]? = some (some l))
    (k j : ℕ) (w : List α) (h : lisCols e n k j = .ok w) :
    ∀ i q, i < n.r → q < k → w[i + q * n.r]? = l[n.base + (j + q) * n.ld + i]? := by
  induction k generalizing j w with
  | zero => intro i q _ hq; omega
  | succ k ih =>
    unfold lisCols at h
    split at h
    · cases h
    · rename_i v hv
      split at h
      · cases h
      · rename_i u hu
        cases h
        intro i q hi hq
        obtain ⟨l', h1, h2, h3⟩ := lisBloc_ok hv
        rw [hl] at h1
        have : l = l' := by simpa using h1
        subst this
        have hvl := lisBloc_length hv
        cases q with
        | zero =>
          rw [List.getElem?_append_left (by rw [hvl]; omega), h3]
          simp only [Nat.zero_mul, Nat.add_zero]
          rw [List.getElem?_take_of_lt hi, List.getElem?_drop]
        | succ q =>
          have e1 : i + (q + 1) * n.r = n.r + (i + q * n.r) := by ring
          rw [e1, List.getElem?_append_right (by rw [hvl]; omega), hvl, Nat.add_sub_cancel_left,
            ih (j + 1) u hu i q hi (by omega)]
          congr 2; ring

theorem lisCols_ok {e : Etat α} {n : Noeud} {l : List α} (hl : e.tampons[n.tampon]? = some (some l))
    (k j : ℕ) (h : ∀ q, j ≤ q → q < j + k → n.base + q * n.ld + n.r ≤ l.length) :
    ∃ w, lisCols e n k j = .ok w := by
  induction k generalizing j with
  | zero => exact ⟨[], rfl⟩
  | succ k ih =>
    obtain ⟨u, hu⟩ := ih (j + 1) (fun q h1 h2 => h q (by omega) (by omega))
    unfold lisCols
    rw [lisBloc_of hl (h j (le_refl _) (by omega)), hu]
    exact ⟨_, rfl⟩

/-- **C36 (reading a block).**  The value of a block view inside a matrix is, at every moment (as for
segments), the designated rectangle of the matrix. -/
theorem C36_bloc_alias (e e' : Etat α) (x y r c r0 nr c0 nc : ℕ) (hxy : x ≠ y) (p : List (Op α))
    (hy : Matrice e y r c) (hr : r0 + nr ≤ r) (hc : c0 + nc ≤ c)
    (hsx : Stable x p) (hsy : Stable y p)
    (h : execute e (.bloc x y r0 nr c0 nc :: p) = .ok e') (w : List α) (hw : valeur e' y = .ok w) :
    ∃ u, valeur e' x = .ok u ∧ u.length = nr * nc ∧
      ∀ i j, i < nr → j < nc → u[i + j * nr]? = w[(r0 + i) + (c0 + j) * r]? := by
  obtain ⟨ny, hny, hrr, hcc, hld, hb⟩ := hy
  unfold execute at h
  simp only [Op.fait, noeud_of hny] at h
  have hvx := stable_vars x p hsx h
  have hvy := stable_vars y p hsy h
  simp only [lie, if_true] at hvx
  simp only [lie, if_neg (Ne.symm hxy), hny] at hvy
  rw [valeur_plat hvy hb] at hw
  obtain ⟨l, h1, h2, h3⟩ := lisBloc_ok hw
  have hval : valeur e' x = lisCols e' (noeudBlock ny r0 nr c0 nc) nc 0 := by
    unfold valeur; rw [noeud_of hvx]; simp [lisNoeud, noeudBlock]
  have key : ∀ i j, i < nr → j < nc → (r0 + i) + (c0 + j) * r < r * c := by
    intro i j hi hj
    calc (r0 + i) + (c0 + j) * r < r + (c0 + j) * r := by omega
      _ = r * (c0 + j + 1) := by ring
      _ ≤ r * c := Nat.mul_le_mul_left r (by omega)
  have hok : ∃ u, lisCols e' (noeudBlock ny r0 nr c0 nc) nc 0 = .ok u := by
    apply lisCols_ok (l := l) (by exact h1)
    intro q _ hq
    simp only [noeudBlock]
    have : q < nc := by omega
    have h5 : (r0 + nr) + (c0 + q) * r ≤ r * c := by
      calc (r0 + nr) + (c0 + q) * r ≤ r + (c0 + q) * r := by omega
        _ = r * (c0 + q + 1) := by ring
        _ ≤ r * c := Nat.mul_le_mul_left r (by omega)
    rw [hrr, hcc] at h2
    rw [hld]
    calc ny.base + r0 + c0 * r + q * r + nr = ny.base + ((r0 + nr) + (c0 + q) * r) := by ring
      _ ≤ l.length := by omega
  obtain ⟨u, hu⟩ := hok
  refine ⟨u, by rw [hval, hu], ?_, ?_⟩
  · have := lisCols_length hu; simpa [noeudBlock] using this
  · intro i j hi hj
    have h6 := lisCols_lire (l := l) (n := noeudBlock ny r0 nr c0 nc) (by exact h1) nc 0 u hu i j
      (by simpa [noeudBlock] using hi) hj
    simp only [noeudBlock] at h6
    rw [h6, h3, hrr, hcc, List.getElem?_take_of_lt (key i j hi hj), List.getElem?_drop, hld]
    congr 1; ring

/-- Effect of the column by column copy on the destination buffer. -/
theorem copieCols_effet {d s : Noeud} (hts : d.tampon ≠ s.tampon) (hld : d.r ≤ d.ld)
    (k j : ℕ) (e e' : Etat α) (l ls : List α) (hl : e.tampons[d.tampon]? = some (some l))
    (hls : e.tampons[s.tampon]? = some (some ls))
    (h : copieCols e d s k j = .ok e') :
    ∃ l', e'.tampons[d.tampon]? = some (some l') ∧ l'.length = l.length ∧
      (∀ q i, j ≤ q → q < j + k → i < d.r →
        l'[d.base + q * d.ld + i]? = ls[s.base + q * s.ld + i]?) ∧
      (∀ a, (∀ q i, j ≤ q → q < j + k → i < d.r → a ≠ d.base + q * d.ld + i) → l'[a]? = l[a]?) := by
  induction k generalizing e l j with
  | zero =>
    simp only [copieCols, Except.ok.injEq] at h; subst h
    exact ⟨l, hl, rfl, fun q i h1 h2 => by omega, fun a _ => rfl⟩
  | succ k ih =>
    unfold copieCols at h
    split at h
    · cases h
    · rename_i e1 h1
      have hs1 := memcpy_seul h1
      obtain ⟨vs, hv, hec⟩ := memcpy_ok h1
      obtain ⟨ls', hls1, hls2, rfl⟩ := lisBloc_ok hv
      rw [hls] at hls1
      have : ls = ls' := by simpa using hls1
      subst this
      obtain ⟨l0, hl0, hlen, hnew⟩ := ecritBloc_ok hec
      rw [hl] at hl0
      have : l = l0 := by simpa using hl0
      subst this
      have hvl : ((ls.drop (s.base + j * s.ld)).take d.r).length = d.r := by simp; omega
      have hls' : e1.tampons[s.tampon]? = some (some ls) := by
        rw [hs1.mem _ (Ne.symm hts)]; exact hls
      obtain ⟨l', h2, h3, h4, h5⟩ := ih (j + 1) e1 _ hnew hls' h
      have hrl := remplace_length _ _ _ hlen
      refine ⟨l', h2, h3.trans hrl, ?_, ?_⟩
      · intro q i hq1 hq2 hi
        rcases Nat.eq_or_lt_of_le hq1 with rfl | hq
        · rw [h5 _ ?_, getElem?_remplace _ _ _ hlen, if_pos (by rw [hvl]; omega),
            List.getElem?_take_of_lt (by omega), List.getElem?_drop]
          · congr 1; omega
          · intro q' i' h6 h7 h8 hc
            have : j * d.ld + d.ld ≤ q' * d.ld := by
              calc j * d.ld + d.ld = (j + 1) * d.ld := by ring
                _ ≤ q' * d.ld := Nat.mul_le_mul_right _ h6
            omega
        · exact h4 q i (by omega) (by omega) hi
      · intro a ha
        rw [h5 a (fun q i h6 h7 h8 => ha q i (by omega) (by omega) h8),
          getElem?_remplace _ _ _ hlen, if_neg]
        intro hc
        rw [hvl] at hc
        exact ha j (a - (d.base + j * d.ld)) (le_refl _) (by omega) (by omega) (by omega)

/-- **C36 (assignment to a block).**  `x.block(r0, nr, c0, nc) = y`, inside the matrix `x` and from a
matrix `y` of other memory, replaces exactly the designated rectangle. -/
theorem C36_versBloc (e e' : Etat α) (x y r c r0 nr c0 nc : ℕ) (hx : Matrice e x r c)
    (hy : Matrice e y nr nc) (hr : r0 + nr ≤ r)
    (hdis : ∀ n m, e.vars x = some n → e.vars y = some m → n.tampon ≠ m.tampon)
    (w u : List α) (hw : valeur e x = .ok w) (hu : valeur e y = .ok u)
    (h : (Op.versBloc x r0 nr c0 nc y).fait e = .ok e') :
    ∃ w', valeur e' x = .ok w' ∧ w'.length = w.length ∧ ∀ i j, i < r → j < c →
      w'[i + j * r]? = if r0 ≤ i ∧ i < r0 + nr ∧ c0 ≤ j ∧ j < c0 + nc
        then u[(i - r0) + (j - c0) * nr]? else w[i + j * r]? := by
  obtain ⟨nx, hnx, hrx, hcx, hldx, hbx⟩ := hx
  obtain ⟨ny, hny, hry, hcy, hldy, hby⟩ := hy
  have hne := hdis nx ny hnx hny
  simp only [Op.fait, noeud_of hnx, noeud_of hny, affecteVue, memesDims, noeudBlock, hry, hcy,
    beq_self_eq_true, Bool.and_self, if_true, copieNoeud, hby, Bool.not_true, Bool.false_and,
    Bool.false_eq_true, if_false] at h
  have hs := copieCols_seul h
  have hx' : e'.vars x = some nx := by rw [hs.vars]; exact hnx
  rw [valeur_plat hnx hbx] at hw
  rw [valeur_plat hny hby] at hu
  obtain ⟨l, hl1, hl2, hl3⟩ := lisBloc_ok hw
  obtain ⟨ls, hs1, hs2, hs3⟩ := lisBloc_ok hu
  obtain ⟨l', h2, h3, h4, h5⟩ := copieCols_effet
    (d := { ref := true, bloc := true, r := nr, c := nc, tampon := nx.tampon,
            base := nx.base + r0 + c0 * nx.ld, ld := nx.ld }) (s := ny)
    (by exact hne) (by simp only [hldx]; omega) nc 0 e e' l ls hl1 hs1 h
  simp only [Nat.zero_le, true_implies, Nat.zero_add, hldx, hldy] at h2 h4 h5
  rw [hrx, hcx] at hl2 hl3
  rw [hry, hcy] at hs2 hs3
  rw [valeur_plat hx' hbx, hrx, hcx]
  refine ⟨_, lisBloc_of h2 (by rw [h3]; exact hl2), by rw [hl3]; simp [h3], ?_⟩
  intro i j hi hj
  have hlt : i + j * r < r * c := by
    calc i + j * r < r + j * r := by omega
      _ = r * (j + 1) := by ring
      _ ≤ r * c := Nat.mul_le_mul_left r hj
  rw [hl3, List.getElem?_take_of_lt hlt, List.getElem?_take_of_lt hlt, List.getElem?_drop,
    List.getElem?_drop]
  by_cases hin : r0 ≤ i ∧ i < r0 + nr ∧ c0 ≤ j ∧ j < c0 + nc
  · rw [if_pos hin]
    obtain ⟨i', rfl⟩ := Nat.exists_eq_add_of_le hin.1
    obtain ⟨j', rfl⟩ := Nat.exists_eq_add_of_le hin.2.2.1
    have h6 := h4 j' i' (by omega) (by omega)
    have e1 : nx.base + (r0 + i' + (c0 + j') * r) = nx.base + r0 + c0 * r + j' * r + i' := by ring
    rw [e1, h6, hs3, Nat.add_sub_cancel_left, Nat.add_sub_cancel_left]
    have hlt2 : i' + j' * nr < nr * nc := by
      calc i' + j' * nr < nr + j' * nr := by omega
        _ = nr * (j' + 1) := by ring
        _ ≤ nr * nc := Nat.mul_le_mul_left nr (by omega)
    rw [List.getElem?_take_of_lt hlt2, List.getElem?_drop]
    congr 1; ring
  · rw [if_neg hin]
    apply h5
    intro q i' hq hi' hc2
    apply hin
    have e2 : i + j * r = (r0 + i') + (c0 + q) * r := by
      have : nx.base + (i + j * r) = nx.base + ((r0 + i') + (c0 + q) * r) := by
        rw [hc2]; ring
      omega
    have hr0 : 0 < r := by omega
    have e3 : (i + j * r) / r = j := by
      rw [Nat.add_mul_div_right _ _ hr0, Nat.div_eq_of_lt hi, Nat.zero_add]
    have e4 : ((r0 + i') + (c0 + q) * r) / r = c0 + q := by
      rw [Nat.add_mul_div_right _ _ hr0, Nat.div_eq_of_lt (by omega), Nat.zero_add]
    have hjq : j = c0 + q := by rw [← e3, e2, e4]
    subst hjq
    omega

/-- Non-vacuity: assignment to a block in the middle of a matrix. -/
example : (execute (α := ℤ) ⟨[], fun _ => none⟩
    [.cree 0 3 3 [1, 2, 3, 4, 5, 6, 7, 8, 9], .cree 1 2 2 [10, 20, 30, 40],
      .versBloc 0 1 2 0 2 1]).map (fun e => valeur e 0)
    = .ok (.ok [1, 10, 20, 4, 30, 40, 7, 8, 9]) := by decide

/-- **C36 refuted (elements of a block).**  With `b = x.block(0, 1, 0, 2)` in a 2×2 matrix, `b(0, 1)`
is the element (1, 0) of `x` instead of (0, 1), and writing `b(0, 1)` modifies it. -/
theorem C36_bloc_element_refute (a b c d v : α) :
    (execute ⟨[], fun _ => none⟩
      [.cree 0 2 2 [a, b, c, d], .bloc 1 0 0 1 0 2, .pose 1 0 1 v]).map (fun e => valeur e 0)
    = .ok (.ok [a, v, c, d]) := by rfl

/-- **C36 refuted (arithmetic on a block).**  `b += …` on the same block modifies `x(0,0)` and
`x(1,0)`, which is outside the block, and not `x(0,1)`. -/
theorem C36_bloc_surPlace_refute (a b c d : α) (f : α → α) :
    (execute ⟨[], fun _ => none⟩
      [.cree 0 2 2 [a, b, c, d], .bloc 1 0 0 1 0 2, .surPlace 1 f]).map (fun e => valeur e 0)
    = .ok (.ok [f a, f b, c, d]) := by rfl

/-- **C36 refuted (bounds of a block).**  A block that exceeds the rows of the matrix is accepted and
silently designates elements of the next column. -/
theorem C36_bloc_borne_refute (a b c d : α) :
    (execute ⟨[], fun _ => none⟩
      [.cree 0 2 2 [a, b, c, d], .bloc 1 0 1 2 0 1]).map (fun e => valeur e 1)
    = .ok (.ok [b, c]) := by rfl

/-! ### In-place arithmetic on vectors and columns -/

/-- **C36 (in-place arithmetic).**  On a vector (a view or not), `x op= k` replaces each element of
`x`, and through a view it replaces exactly the designated elements (`C36_segment_alias`). -/
theorem C36_surPlace (e e' : Etat α) (x : ℕ) (f : α → α) (n : Noeud) (hn : e.vars x = some n)
    (hb : n.bloc = false) (w : List α) (hw : valeur e x = .ok w)
    (h : (Op.surPlace x f).fait e = .ok e') : valeur e' x = .ok (w.map f) := by
  simp only [Op.fait, noeud_of hn, surPlace] at h
  rw [valeur_plat hn hb] at hw
  rw [hw] at h
  simp only at h
  have hs := ecritBloc_seul h
  have hn' : e'.vars x = some n := by rw [hs.vars]; exact hn
  obtain ⟨l, h1, h2, h3⟩ := ecritBloc_ok h
  obtain ⟨l', h4, h5, h6⟩ := lisBloc_ok hw
  rw [h1] at h4
  have : l = l' := by simpa using h4
  subst this
  have hwl : w.length = n.r * n.c := by rw [h6]; simp; omega
  rw [valeur_plat hn' hb, lisBloc_of h3 (by rw [remplace_length _ _ _ h2]; exact h5),
    fenetre_remplace _ _ _ _ _ (le_refl _) (by rw [List.length_map, hwl]) h5, ← h6, Nat.sub_self]
  unfold remplace
  simp

/-! ### C61, C62 -/

/-- **C61 (vectors).**  `conservativeResize(n)` keeps the elements that remain. -/
theorem C61_vecteur (l : List α) (n : ℕ) (indet : ℕ → α) :
    (redimensionne l n 1 indet).length = n ∧
      ∀ i, i < n → i < l.length → (redimensionne l n 1 indet)[i]? = l[i]? := by
  unfold redimensionne
  refine ⟨by simp; omega, ?_⟩
  intro i hi hl
  rw [List.getElem?_append_left (by simp; omega), List.getElem?_take_of_lt (by omega)]

/-- **C61 (matrices, same number of rows).**  Adding or removing columns keeps the elements. -/
theorem C61_colonnes (l : List α) (r c m : ℕ) (hl : l.length = r * c) (indet : ℕ → α) :
    (redimensionne l r m indet).length = r * m ∧ ∀ i j, i < r → j < c → j < m →
      (redimensionne l r m indet)[i + j * r]? = l[i + j * r]? := by
  refine ⟨by simp [redimensionne]; omega, ?_⟩
  intro i j hi hj hm
  have h1 : i + j * r < r * m := by
    calc i + j * r < r + j * r := by omega
      _ = r * (j + 1) := by ring
      _ ≤ r * m := Nat.mul_le_mul_left r hm
  have h2 : i + j * r < r * c := by
    calc i + j * r < r + j * r := by omega
      _ = r * (j + 1) := by ring
      _ ≤ r * c := Nat.mul_le_mul_left r hj
  unfold redimensionne
  rw [List.getElem?_append_left (by simp; omega), List.getElem?_take_of_lt h1]

/-- **C61 refuted (matrices).**  From 1×2 to 2×2: element (0, 1) moves to (1, 0). -/
theorem C61_lignes_refute (a b : α) (indet : ℕ → α) :
    (redimensionne [a, b] 2 2 indet)[1 + 0 * 2]? = some b ∧
    (redimensionne [a, b] 2 2 indet)[0 + 1 * 2]? = some (indet 0) := by
  constructor <;> rfl

/-- **C62 (vectors).**  `int_expr(n, f)` is the vector of `f(i)`. -/
theorem C62_vecteur (n : ℕ) (f : ℕ → α) (i : ℕ) (hi : i < n) : (intExpr1 n f)[i]? = some (f i) := by
  simp [intExpr1, hi]

/-- **C62 refuted (matrices).**  `int_expr(n, m, f)` writes out of its buffer as soon as there is
more than one column (and a row). -/
theorem C62_matrice_refute (n m : ℕ) (f : ℕ → ℕ → α) (hn : 0 < n) (hm : 1 < m) :
    intExpr2 n m f = .error .indefini := by
  unfold intExpr2
  rw [if_neg]
  have : n * 2 ≤ n * m := Nat.mul_le_mul_left n hm
  omega

end Tableau
