import Verif.Tableau.Model
import Mathlib.Tactic.Ring
import Mathlib.Tactic.Linarith

namespace Tableau

variable {α : Type}

/-! ### Memory -/

/-- Only the buffer `t` may differ. -/
structure Seul (e e' : Etat α) (t : ℕ) : Prop where
  vars : e'.vars = e.vars
  len : e'.tampons.length = e.tampons.length
  mem : ∀ u, u ≠ t → e'.tampons[u]? = e.tampons[u]?

theorem Seul.refl (e : Etat α) (t : ℕ) : Seul e e t := ⟨rfl, rfl, fun _ _ => rfl⟩

theorem Seul.trans {e e' e'' : Etat α} {t : ℕ} (h : Seul e e' t) (h' : Seul e' e'' t) :
    Seul e e'' t :=
  ⟨h'.vars.trans h.vars, h'.len.trans h.len, fun u hu => (h'.mem u hu).trans (h.mem u hu)⟩

theorem ecritBloc_seul {e e' : Etat α} {t k : ℕ} {vs : List α} (h : ecritBloc e t k vs = .ok e') :
    Seul e e' t := by
  unfold ecritBloc at h
  split at h
  · split at h
    · cases h
      refine ⟨rfl, by simp, ?_⟩
      intro u hu
      simp only
      rw [List.getElem?_set_ne (Ne.symm hu)]
    · cases h
  · cases h

theorem memcpy_seul {e e' : Etat α} {td kd ts ks n : ℕ} (h : memcpy e td kd ts ks n = .ok e') :
    Seul e e' td := by
  unfold memcpy at h
  split at h
  · cases h
  · split at h
    · exact ecritBloc_seul h
    · cases h

theorem copieCols_seul {e e' : Etat α} {d s : Noeud} {k j : ℕ}
    (h : copieCols e d s k j = .ok e') : Seul e e' d.tampon := by
  induction k generalizing e j with
  | zero => simp only [copieCols, Except.ok.injEq] at h; subst h; exact Seul.refl _ _
  | succ k ih =>
    unfold copieCols at h
    split at h
    · cases h
    · rename_i e1 h1
      exact (memcpy_seul h1).trans (ih h)

theorem copieNoeud_seul {e e' : Etat α} {d s : Noeud} (h : copieNoeud e d s = .ok e') :
    Seul e e' d.tampon := by
  unfold copieNoeud at h
  split at h
  · exact memcpy_seul h
  · exact copieCols_seul h

theorem lisBloc_congr {e e' : Etat α} {t k n : ℕ} (h : e'.tampons[t]? = e.tampons[t]?) :
    lisBloc e' t k n = lisBloc e t k n := by unfold lisBloc; rw [h]

theorem lisCols_congr {e e' : Etat α} {n : Noeud} (k j : ℕ)
    (h : e'.tampons[n.tampon]? = e.tampons[n.tampon]?) :
    lisCols e' n k j = lisCols e n k j := by
  induction k generalizing j with
  | zero => rfl
  | succ k ih => unfold lisCols; rw [lisBloc_congr h, ih]

theorem lisNoeud_congr {e e' : Etat α} {n : Noeud}
    (h : e'.tampons[n.tampon]? = e.tampons[n.tampon]?) : lisNoeud e' n = lisNoeud e n := by
  unfold lisNoeud; rw [lisBloc_congr h, lisCols_congr _ _ h]

/-! ### What a statement mentions and may rebind -/

/-- Variables a statement mentions. -/
def Op.mentionne : Op α → List ℕ
  | .cree x _ _ _ => [x]
  | .copie x y => [x, y]
  | .segment x y _ _ => [x, y]
  | .col x y _ => [x, y]
  | .bloc x y _ _ _ _ => [x, y]
  | .affecte x y => [x, y]
  | .affecteSegment x y _ _ => [x, y]
  | .versSegment x _ _ y => [x, y]
  | .versCol x _ y => [x, y]
  | .versBloc x _ _ _ _ y => [x, y]
  | .pose x _ _ _ => [x]
  | .surPlace x _ => [x]
  | .resize x _ _ _ => [x]

/-- Variable that a statement declares, assigns as a whole or resizes. -/
def Op.cible : Op α → Option ℕ
  | .cree x _ _ _ => some x
  | .copie x _ => some x
  | .segment x _ _ _ => some x
  | .col x _ _ => some x
  | .bloc x _ _ _ _ _ => some x
  | .affecte x _ => some x
  | .affecteSegment x _ _ _ => some x
  | .resize x _ _ _ => some x
  | _ => none

/-- Every variable points in a buffer that exists. -/
def Valide (e : Etat α) : Prop := ∀ x n, e.vars x = some n → n.tampon < e.tampons.length

/-- Effect of a statement: buffers and variables that may differ. -/
structure Pas (e e' : Etat α) (S : List ℕ) (c : Option ℕ) : Prop where
  len : e.tampons.length ≤ e'.tampons.length
  mem : ∀ t, t < e.tampons.length → (∀ x ∈ S, ∀ n, e.vars x = some n → n.tampon ≠ t) →
    e'.tampons[t]? = e.tampons[t]?
  vars : ∀ y, c ≠ some y → e'.vars y = e.vars y
  cible : ∀ y n', e'.vars y = some n' → e.vars y = some n' ∨
    (y ∈ S ∧ ((e.tampons.length ≤ n'.tampon ∧ n'.tampon < e'.tampons.length) ∨
      ∃ x ∈ S, ∃ n, e.vars x = some n ∧ n'.tampon = n.tampon))

theorem Seul.pas {e e' : Etat α} {t : ℕ} (h : Seul e e' t) {S : List ℕ} {c : Option ℕ}
    (ht : ∃ x ∈ S, ∃ n, e.vars x = some n ∧ n.tampon = t) : Pas e e' S c := by
  obtain ⟨x, hx, n, hn, hnt⟩ := ht
  refine ⟨by rw [h.len], ?_, ?_, ?_⟩
  · intro u _ hu; exact h.mem u fun hc => hu x hx n hn (by rw [hnt, hc])
  · intro y _; rw [h.vars]
  · intro y n' hy; rw [h.vars] at hy; exact Or.inl hy

theorem noeud_ok {e : Etat α} {x : ℕ} {n : Noeud} (h : noeud e x = .ok n) : e.vars x = some n := by
  unfold noeud at h
  split at h
  · rename_i m hm; cases h; exact hm
  · cases h

theorem noeud_of {e : Etat α} {x : ℕ} {n : Noeud} (h : e.vars x = some n) : noeud e x = .ok n := by
  unfold noeud; rw [h]

theorem lie_pas {e : Etat α} {x : ℕ} {n : Noeud} {S : List ℕ} (hx : x ∈ S)
    (h : ∃ y ∈ S, ∃ m, e.vars y = some m ∧ n.tampon = m.tampon) :
    Pas e (lie e x n) S (some x) := by
  refine ⟨le_refl _, fun _ _ _ => rfl, ?_, ?_⟩
  · intro y hy
    have : y ≠ x := fun hc => hy (by rw [hc])
    simp [lie, this]
  · intro y n' hy
    by_cases hc : y = x
    · subst hc
      simp [lie] at hy
      subst hy
      exact Or.inr ⟨hx, Or.inr h⟩
    · simp [lie, hc] at hy; exact Or.inl hy

theorem alloue_pas (e : Etat α) (x r c : ℕ) (vs : List α) (S : List ℕ) (hx : x ∈ S) :
    Pas e (alloue e x r c vs) S (some x) := by
  refine ⟨by simp [alloue, lie], ?_, ?_, ?_⟩
  · intro t ht _; simp [alloue, lie, List.getElem?_append_left ht]
  · intro y hy
    have : y ≠ x := fun hc => hy (by rw [hc])
    simp [alloue, lie, this]
  · intro y n' hy
    by_cases hc : y = x
    · subst hc
      simp [alloue, lie] at hy
      subst hy
      exact Or.inr ⟨hx, Or.inl ⟨le_refl _, by simp [alloue, lie]⟩⟩
    · simp [alloue, lie, hc] at hy; exact Or.inl hy

theorem clone_pas {e e' : Etat α} {x : ℕ} {n : Noeud} {S : List ℕ} (hx : x ∈ S)
    (h : clone e x n = .ok e') : Pas e e' S (some x) := by
  unfold clone at h
  split at h
  · cases h; exact alloue_pas _ _ _ _ _ _ hx
  · cases h

theorem noeudSegment_tampon {p s : Noeud} {i0 n : ℤ} (h : noeudSegment p i0 n = .ok s) :
    s.tampon = p.tampon := by
  unfold noeudSegment at h
  split at h
  · cases h
  · split at h
    · cases h
    · cases h; rfl

theorem noeudCol_tampon {p s : Noeud} {j : ℕ} (h : noeudCol p j = .ok s) :
    s.tampon = p.tampon := by
  unfold noeudCol at h
  split at h
  · cases h
  · cases h; rfl

theorem affecteVue_seul {e e' : Etat α} {d s : Noeud} (h : affecteVue e d s = .ok e') :
    Seul e e' d.tampon := by
  unfold affecteVue at h
  split at h
  · exact copieNoeud_seul h
  · split at h
    · cases h; exact Seul.refl _ _
    · cases h

theorem surPlace_seul {e e' : Etat α} {n : Noeud} {f : α → α} (h : surPlace e n f = .ok e') :
    Seul e e' n.tampon := by
  unfold surPlace at h
  split at h
  · exact ecritBloc_seul h
  · cases h

theorem resize_pas (e : Etat α) (x : ℕ) (n : Noeud) (r c : ℕ) (vs : List α) (hn : e.vars x = some n) :
    Pas e (resize e x n r c vs) [x] (some x) := by
  unfold resize
  split
  · exact ⟨le_refl _, fun _ _ _ => rfl, fun _ _ => rfl, fun y n' h => Or.inl h⟩
  · have hl : (if n.ref then e.tampons else e.tampons.set n.tampon none).length
        = e.tampons.length := by split <;> simp
    refine ⟨by simp [lie, hl], ?_, ?_, ?_⟩
    · intro t ht hm
      have hne : n.tampon ≠ t := hm x (by simp) n hn
      simp only [lie]
      rw [List.getElem?_append_left (by rw [hl]; exact ht)]
      split
      · rfl
      · rw [List.getElem?_set_ne hne]
    · intro y hy
      have : y ≠ x := fun hc => hy (by rw [hc])
      simp [lie, this]
    · intro y n' hy
      by_cases hc : y = x
      · subst hc
        simp [lie] at hy
        subst hy
        exact Or.inr ⟨by simp, Or.inl ⟨by simp [hl], by simp [lie, hl]⟩⟩
      · simp [lie, hc] at hy; exact Or.inl hy

/-- Every statement is such a step. -/
theorem fait_pas {e e' : Etat α} (o : Op α) (h : o.fait e = .ok e') :
    Pas e e' o.mentionne o.cible := by
  cases o with
  | cree x r c vs =>
    simp only [Op.fait, Except.ok.injEq] at h; subst h
    exact alloue_pas _ _ _ _ _ _ (by simp [Op.mentionne])
  | copie x y =>
    simp only [Op.fait] at h
    split at h
    · exact clone_pas (by simp [Op.mentionne]) h
    · cases h
  | segment x y i0 n =>
    simp only [Op.fait] at h
    split at h
    · rename_i p hp
      split at h
      · rename_i s hs
        cases h
        exact lie_pas (by simp [Op.mentionne])
          ⟨y, by simp [Op.mentionne], p, noeud_ok hp, noeudSegment_tampon hs⟩
      · cases h
    · cases h
  | col x y num =>
    simp only [Op.fait] at h
    split at h
    · rename_i p hp
      split at h
      · rename_i s hs
        cases h
        exact lie_pas (by simp [Op.mentionne])
          ⟨y, by simp [Op.mentionne], p, noeud_ok hp, noeudCol_tampon hs⟩
      · cases h
    · cases h
  | bloc x y r0 nr c0 nc =>
    simp only [Op.fait] at h
    split at h
    · rename_i p hp
      cases h
      exact lie_pas (by simp [Op.mentionne])
        ⟨y, by simp [Op.mentionne], p, noeud_ok hp, rfl⟩
    · cases h
  | affecte x y =>
    simp only [Op.fait] at h
    split at h
    · rename_i d s hd hs
      unfold affecte at h
      split at h
      · exact (copieNoeud_seul h).pas ⟨x, by simp [Op.mentionne], d, noeud_ok hd, rfl⟩
      · exact clone_pas (by simp [Op.mentionne]) h
    · cases h
    · cases h
  | affecteSegment x y i0 n =>
    simp only [Op.fait] at h
    split at h
    · rename_i d p hd hp
      split at h
      · rename_i s hs
        unfold affecteMove at h
        split at h
        · exact (copieNoeud_seul h).pas ⟨x, by simp [Op.mentionne], d, noeud_ok hd, rfl⟩
        · cases h
          exact lie_pas (by simp [Op.mentionne])
            ⟨y, by simp [Op.mentionne], p, noeud_ok hp, noeudSegment_tampon hs⟩
      · cases h
    · cases h
    · cases h
  | versSegment x i0 n y =>
    simp only [Op.fait] at h
    split at h
    · rename_i p s hp hs
      split at h
      · rename_i d hd
        exact (affecteVue_seul h).pas
          ⟨x, by simp [Op.mentionne], p, noeud_ok hp, (noeudSegment_tampon hd).symm⟩
      · cases h
    · cases h
    · cases h
  | versCol x num y =>
    simp only [Op.fait] at h
    split at h
    · rename_i p s hp hs
      split at h
      · rename_i d hd
        exact (affecteVue_seul h).pas
          ⟨x, by simp [Op.mentionne], p, noeud_ok hp, (noeudCol_tampon hd).symm⟩
      · cases h
    · cases h
    · cases h
  | versBloc x r0 nr c0 nc y =>
    simp only [Op.fait] at h
    split at h
    · rename_i p s hp hs
      exact (affecteVue_seul h).pas ⟨x, by simp [Op.mentionne], p, noeud_ok hp, rfl⟩
    · cases h
    · cases h
  | pose x i j v =>
    simp only [Op.fait] at h
    split at h
    · rename_i n hn
      exact (ecritBloc_seul h).pas ⟨x, by simp [Op.mentionne], n, noeud_ok hn, rfl⟩
    · cases h
  | surPlace x f =>
    simp only [Op.fait] at h
    split at h
    · rename_i n hn
      exact (surPlace_seul h).pas ⟨x, by simp [Op.mentionne], n, noeud_ok hn, rfl⟩
    · cases h
  | resize x r c vs =>
    simp only [Op.fait] at h
    split at h
    · rename_i n hn
      cases h
      exact resize_pas _ _ _ _ _ _ (noeud_ok hn)
    · cases h

theorem Pas.valide {e e' : Etat α} {S : List ℕ} {c : Option ℕ} (h : Pas e e' S c) (hv : Valide e) :
    Valide e' := by
  intro y n' hy
  rcases h.cible y n' hy with h1 | ⟨-, h1 | ⟨x, -, n, hn, h1⟩⟩
  · exact lt_of_lt_of_le (hv y n' h1) h.len
  · exact h1.2
  · rw [h1]; exact lt_of_lt_of_le (hv x n hn) h.len

/-! ### Replacement in a list -/

theorem remplace_length (l : List α) (k : ℕ) (vs : List α) (h : k + vs.length ≤ l.length) :
    (remplace l k vs).length = l.length := by
  simp [remplace]; omega

theorem getElem?_remplace (l : List α) (k : ℕ) (vs : List α) (h : k + vs.length ≤ l.length) (i : ℕ) :
    (remplace l k vs)[i]? = if k ≤ i ∧ i < k + vs.length then vs[i - k]? else l[i]? := by
  unfold remplace
  rw [List.append_assoc, List.getElem?_append, List.getElem?_append]
  have hk : (l.take k).length = k := by simp; omega
  rw [hk]
  by_cases h1 : i < k
  · rw [if_pos h1, if_neg (by omega), List.getElem?_take_of_lt h1]
  · rw [if_neg h1]
    by_cases h2 : i < k + vs.length
    · rw [if_pos (by omega), if_pos (by omega)]
    · rw [if_neg (by omega), if_neg (by omega), List.getElem?_drop]
      congr 1; omega

/-- Window of a replaced list, the replacement being inside the window. -/
theorem fenetre_remplace (l : List α) (k b n : ℕ) (vs : List α) (h1 : b ≤ k)
    (h2 : k + vs.length ≤ b + n) (h3 : b + n ≤ l.length) :
    ((remplace l k vs).drop b).take n = remplace ((l.drop b).take n) (k - b) vs := by
  apply List.ext_getElem?
  intro i
  rw [getElem?_remplace _ _ _ (by simp; omega)]
  by_cases hi : i < n
  · rw [List.getElem?_take_of_lt hi, List.getElem?_take_of_lt hi, List.getElem?_drop,
      List.getElem?_drop, getElem?_remplace _ _ _ (by omega)]
    by_cases hc : k ≤ b + i ∧ b + i < k + vs.length
    · rw [if_pos hc, if_pos (by omega)]; congr 1; omega
    · rw [if_neg hc, if_neg (by omega)]
  · have : (List.take n (List.drop b l))[i]? = none := by
      apply List.getElem?_eq_none; simp; omega
    rw [this, if_neg (by omega)]
    apply List.getElem?_eq_none; simp; omega

theorem remplace_un (l : List α) (k : ℕ) (v : α) (h : k < l.length) :
    remplace l k [v] = l.set k v := by
  apply List.ext_getElem?
  intro i
  rw [getElem?_remplace _ _ _ (by simp; omega), List.getElem?_set]
  by_cases hc : i = k
  · subst hc; simp [h]
  · rw [if_neg (by simp; omega), if_neg (by omega)]

/-! ### Reading and writing -/

theorem lisBloc_ok {e : Etat α} {t k n : ℕ} {w : List α} (h : lisBloc e t k n = .ok w) :
    ∃ l, e.tampons[t]? = some (some l) ∧ k + n ≤ l.length ∧ w = (l.drop k).take n := by
  unfold lisBloc at h
  split at h
  · rename_i l hl
    split at h
    · rename_i hb; cases h; exact ⟨l, hl, hb, rfl⟩
    · cases h
  · cases h

theorem lisBloc_of {e : Etat α} {t k n : ℕ} {l : List α} (h : e.tampons[t]? = some (some l))
    (hb : k + n ≤ l.length) : lisBloc e t k n = .ok ((l.drop k).take n) := by
  unfold lisBloc; rw [h]; simp [hb]

theorem ecritBloc_ok {e e' : Etat α} {t k : ℕ} {vs : List α} (h : ecritBloc e t k vs = .ok e') :
    ∃ l, e.tampons[t]? = some (some l) ∧ k + vs.length ≤ l.length ∧
      e'.tampons[t]? = some (some (remplace l k vs)) := by
  unfold ecritBloc at h
  split at h
  · rename_i l hl
    split at h
    · rename_i hb
      cases h
      refine ⟨l, hl, hb, ?_⟩
      have : t < e.tampons.length := by
        by_contra hc
        rw [List.getElem?_eq_none (by omega)] at hl; cases hl
      simp [this]
    · cases h
  · cases h

theorem ecritBloc_of {e : Etat α} {t k : ℕ} {vs l : List α} (h : e.tampons[t]? = some (some l))
    (hb : k + vs.length ≤ l.length) : ∃ e', ecritBloc e t k vs = .ok e' := by
  unfold ecritBloc; rw [h]; simp [hb]

theorem memcpy_ok {e e' : Etat α} {td kd ts ks n : ℕ} (h : memcpy e td kd ts ks n = .ok e') :
    ∃ vs, lisBloc e ts ks n = .ok vs ∧ ecritBloc e td kd vs = .ok e' := by
  unfold memcpy at h
  split at h
  · cases h
  · split at h
    · rename_i vs hvs; exact ⟨vs, hvs, h⟩
    · cases h

end Tableau
