import Verif.Filtre.Sim
import Verif.Filtre.Spec
import Mathlib.Data.List.GetD
import Mathlib.Algebra.Order.Field.Rat
import Mathlib.Algebra.Order.Field.Basic
import Mathlib.Tactic.Ring
import Mathlib.Tactic.Linarith
import Mathlib.Tactic.FieldSimp
import Mathlib.Tactic.LinearCombination

/-!
# Block invariance of the remaining streaming filters (C18), second-order sections (C45), exponential smoother (C46),
DC blocker (C47)
-/

namespace Verif.Filtre

/-! ## Filters that initialise themselves on the first non-empty block -/

private theorem decoupable_prep {S X Y : Type} (g : S → X → Option (S × Y)) (prep : S → X → S) (Pret : S → Prop)
    (hp : ∀ s x, Pret (prep s x)) (hid : ∀ s x, Pret s → prep s x = s)
    (hg : ∀ s x s' y, Pret s → g s x = some (s', y) → Pret s') (f : Bloc S X Y)
    (hf0 : ∀ s, f s [] = some (s, [])) (hf : ∀ s x0 xs, f s (x0 :: xs) = boucle g (prep s x0) (x0 :: xs)) :
    Decoupable f (fun _ => True) := by
  have keep : ∀ xs s s' y, Pret s → boucle g s xs = some (s', y) → Pret s' := by
    intro xs
    induction xs with
    | nil => intro s s' y h e; simp only [boucle, Option.some.injEq, Prod.mk.injEq] at e; rw [← e.1]; exact h
    | cons x xs ih =>
      intro s s' y h e
      simp only [boucle] at e
      cases e1 : g s x with
      | none => simp [e1] at e
      | some p =>
        obtain ⟨s1, y1⟩ := p
        rw [e1] at e
        simp only at e
        cases e2 : boucle g s1 xs with
        | none => simp [e2] at e
        | some q =>
          obtain ⟨s2, y2⟩ := q
          rw [e2] at e
          simp only [Option.some.injEq, Prod.mk.injEq] at e
          rw [← e.1]
          exact ih s1 s2 y2 (hg _ _ _ _ h e1) e2
  refine ⟨fun s _ => hf0 s, fun _ _ _ _ _ _ => trivial, ?_⟩
  intro s a b _
  cases a with
  | nil =>
    rw [hf0, List.nil_append]
    simp only
    cases f s b <;> simp
  | cons x a =>
    rw [List.cons_append, hf, hf, ← List.cons_append, boucle_append]
    cases e : boucle g (prep s x) (x :: a) with
    | none => rfl
    | some p =>
      obtain ⟨s1, y1⟩ := p
      simp only
      have hP := keep _ _ _ _ (hp s x) e
      cases b with
      | nil => simp [boucle, hf0]
      | cons z b => rw [hf, hid _ _ hP]

/-- The second-order section sample function, whichever the form. -/
private def soisEch {T C : Type} (add sub : T → T → T) (mul : C → T → T) (s : Sois T C) (x : T) : Option (Sois T C × T) :=
  if s.forme2 then Sois.ech2 add sub mul s x else Sois.ech1 add sub mul s x

private theorem sois_boucle {T C : Type} (add sub : T → T → T) (mul : C → T → T) (xs : List T) : ∀ s : Sois T C,
    boucle (soisEch add sub mul) s xs =
      if s.forme2 then boucle (Sois.ech2 add sub mul) s xs else boucle (Sois.ech1 add sub mul) s xs := by
  induction xs with
  | nil => intro s; simp [boucle]
  | cons x xs ih =>
    intro s
    cases h : s.forme2 <;> simp [boucle, soisEch, h, Sois.ech1, Sois.ech2, ih]

private def soisPrep {T C : Type} (s : Sois T C) (x0 : T) : Sois T C :=
  if s.premier then { s with y0 := x0, y1 := x0, y2 := x0, x2 := x0, x1 := x0, premier := false } else s

private theorem sois_decoupable {T C : Type} (add sub : T → T → T) (mul : C → T → T) :
    Decoupable (Sois.step (T := T) (C := C) add sub mul) (fun _ => True) := by
  refine decoupable_prep (soisEch add sub mul) soisPrep (fun s => s.premier = false) ?_ ?_ ?_ _ (fun _ => rfl) ?_
  · intro s x; unfold soisPrep; split <;> simp_all
  · intro s x h; simp [soisPrep, h]
  · intro s x s' y h e
    unfold soisEch at e
    split at e <;> simp only [Sois.ech1, Sois.ech2, Option.some.injEq, Prod.mk.injEq] at e <;> rw [← e.1] <;> exact h
  · intro s x0 xs
    rw [sois_boucle]
    rfl

private theorem lexp_boucle {T C : Type} (add sub : T → T → T) (mul : C → T → T) (xs : List T) : ∀ s : Lexp T C,
    boucle (Lexp.ech add sub mul) { s with init := true } xs =
      match boucle (Lexp.ech add sub mul) s xs with
      | none => none
      | some (s', y) => some ({ s' with init := true }, y) := by
  induction xs with
  | nil => intro s; rfl
  | cons x xs ih =>
    intro s
    have := ih { s with acc := add s.acc (mul s.γ (sub x s.acc)) }
    simp only [boucle, Lexp.ech] at this ⊢
    rw [this]
    cases boucle (Lexp.ech add sub mul) { s with acc := add s.acc (mul s.γ (sub x s.acc)) } xs <;> rfl

private theorem lexp_decoupable {T C : Type} (add sub : T → T → T) (mul : C → T → T) :
    Decoupable (Lexp.step (T := T) (C := C) add sub mul) (fun _ => True) := by
  refine decoupable_prep (Lexp.ech add sub mul)
    (fun s x0 => { (if s.init then s else { s with acc := x0 }) with init := true }) (fun s => s.init = true) ?_ ?_ ?_ _
    (fun _ => rfl) ?_
  · intro s x; rfl
  · intro s x h; cases s; simp_all
  · intro s x s' y h e
    simp only [Lexp.ech, Option.some.injEq, Prod.mk.injEq] at e
    rw [← e.1]; exact h
  · intro s x0 xs
    rw [lexp_boucle]
    rfl

/-- **C18 (second-order section).** Any cutting, from any state (in particular a freshly configured one), either form. -/
theorem C18_sois {T C : Type} (add sub : T → T → T) (mul : C → T → T) (s : Sois T C) (blocs : List (List T)) :
    enchaine (Sois.step add sub mul) s blocs = Sois.step add sub mul s blocs.flatten :=
  enchaine_eq _ _ (sois_decoupable add sub mul) blocs s trivial

/-- **C18 (exponential smoother).** -/
theorem C18_lexp {T C : Type} (add sub : T → T → T) (mul : C → T → T) (s : Lexp T C) (blocs : List (List T)) :
    enchaine (Lexp.step add sub mul) s blocs = Lexp.step add sub mul s blocs.flatten :=
  enchaine_eq _ _ (lexp_decoupable add sub mul) blocs s trivial

/-- **C18 (DC blocker).** -/
theorem C18_dc {T C : Type} (add sub : T → T → T) (mul : C → T → T) (s : Dc T C) (blocs : List (List T)) :
    enchaine (Dc.step add sub mul) s blocs = Dc.step add sub mul s blocs.flatten :=
  enchaine_eq _ _ (boucle_decoupable (Dc.ech add sub mul)) blocs s trivial

/-- **C18 (first-order section).** -/
theorem C18_premier_ordre {T C : Type} (add : T → T → T) (neg : C → C) (mul : C → T → T) (s : Fos T C)
    (blocs : List (List T)) :
    enchaine (Fos.step add neg mul) s blocs = Fos.step add neg mul s blocs.flatten :=
  enchaine_eq _ _ (boucle_decoupable (Fos.ech add neg mul)) blocs s trivial

/-- Guarded sample loops: the guard is on a field the loop preserves. -/
private theorem decoupable_garde {S X Y : Type} (g : S → X → Option (S × Y)) (f : Bloc S X Y) (I : S → Prop)
    (hf : ∀ s x, I s → f s x = boucle g s x) (hg : ∀ s x s' y, I s → g s x = some (s', y) → I s') :
    Decoupable f I := by
  have keep : ∀ xs s s' y, I s → boucle g s xs = some (s', y) → I s' := by
    intro xs
    induction xs with
    | nil => intro s s' y h e; simp only [boucle, Option.some.injEq, Prod.mk.injEq] at e; rw [← e.1]; exact h
    | cons x xs ih =>
      intro s s' y h e
      simp only [boucle] at e
      cases e1 : g s x with
      | none => simp [e1] at e
      | some p =>
        obtain ⟨s1, y1⟩ := p
        rw [e1] at e
        simp only at e
        cases e2 : boucle g s1 xs with
        | none => simp [e2] at e
        | some q =>
          obtain ⟨s2, y2⟩ := q
          rw [e2] at e
          simp only [Option.some.injEq, Prod.mk.injEq] at e
          rw [← e.1]
          exact ih s1 s2 y2 (hg _ _ _ _ h e1) e2
  refine ⟨fun s h => by rw [hf s _ h]; rfl, fun s a s' y h e => ?_, ?_⟩
  · rw [hf s _ h] at e; exact keep _ _ _ _ h e
  · intro s a b h
    rw [hf s _ h, hf s _ h, boucle_append]
    cases e : boucle g s a with
    | none => rfl
    | some p =>
      obtain ⟨s1, y1⟩ := p
      simp only
      rw [hf s1 b (keep _ _ _ _ h e)]

/-- **C18 (moving average).** -/
theorem C18_moyenne {T : Type} (zero : T) (add sub : T → T → T) (fin : T → T) (K : Nat) (hK : 0 < K)
    (blocs : List (List T)) :
    enchaine (Mg.step add sub fin) (Mg.init zero K) blocs = Mg.step add sub fin (Mg.init zero K) blocs.flatten := by
  refine enchaine_eq _ (fun s => s.K ≠ 0) (decoupable_garde (Mg.ech add sub fin) _ _ ?_ ?_) blocs _
    (by simp [Mg.init]; omega)
  · intro s x h; simp [Mg.step, h]
  · intro s x s' y h e
    simp only [Mg.ech] at e
    split at e
    · simp at e
    · rw [if_neg h] at e
      simp only [Option.some.injEq, Prod.mk.injEq] at e
      rw [← e.1]; exact h

/-- **C18 (delay line).** -/
theorem C18_retard {T : Type} (zero : T) (k : Nat) (blocs : List (List T)) :
    enchaine Retard.step (Retard.init zero k) blocs = Retard.step (Retard.init zero k) blocs.flatten := by
  by_cases hk : k = 0
  · subst hk
    have : ∀ s : Retard T, s.retard = 0 → enchaine Retard.step s blocs = some (s, blocs.flatten) := by
      intro s hs
      induction blocs with
      | nil => rfl
      | cons b bs ih => simp [enchaine, Retard.step, hs, ih]
    rw [this _ rfl]; simp [Retard.step, Retard.init]
  · refine enchaine_eq _ (fun s => s.retard ≠ 0) (decoupable_garde Retard.ech _ _ ?_ ?_) blocs _
      (by simp [Retard.init]; omega)
    · intro s x h; simp [Retard.step, h]
    · intro s x s' y h e
      simp only [Retard.ech] at e
      split at e
      · simp at e
      · rw [if_neg h] at e
        simp only [Option.some.injEq, Prod.mk.injEq] at e
        rw [← e.1]; exact h

private theorem sections_decoupable {T C : Type} (add sub : T → T → T) (mul : C → T → T) :
    Decoupable (Chaine.sectionsStep (T := T) (C := C) add sub mul) (fun _ => True) := by
  have hS := sois_decoupable (T := T) (C := C) add sub mul
  refine ⟨?_, fun _ _ _ _ _ _ => trivial, ?_⟩
  · intro ss _
    induction ss with
    | nil => rfl
    | cons s ss ih => simp [Chaine.sectionsStep, hS.1 s trivial, ih]
  · intro ss
    induction ss with
    | nil => intro a b _; rfl
    | cons s ss ih =>
      intro a b _
      simp only [Chaine.sectionsStep]
      rw [hS.2.2 s a b trivial]
      cases e1 : Sois.step add sub mul s a with
      | none => rfl
      | some p =>
        obtain ⟨s1, y1⟩ := p
        simp only
        cases e2 : Sois.step add sub mul s1 b with
        | none => cases Chaine.sectionsStep add sub mul ss y1 <;> simp [Chaine.sectionsStep, e2]
        | some q =>
          obtain ⟨s2, y2⟩ := q
          simp only
          rw [ih y1 y2 trivial]
          cases e3 : Chaine.sectionsStep add sub mul ss y1 with
          | none => rfl
          | some r =>
            obtain ⟨ss1, z1⟩ := r
            simp only [Chaine.sectionsStep, e2]
            cases Chaine.sectionsStep add sub mul ss1 y2 <;> rfl

/-- **C18 (chain of second-order sections)**, with or without the final first-order section. -/
theorem C18_chaine {T C : Type} (add sub : T → T → T) (neg : C → C) (mul : C → T → T) (s : Chaine T C)
    (blocs : List (List T)) :
    enchaine (Chaine.step add sub neg mul) s blocs = Chaine.step add sub neg mul s blocs.flatten := by
  refine enchaine_eq _ (fun _ => True) ?_ blocs s trivial
  have hS := sections_decoupable (T := T) (C := C) add sub mul
  have hF := boucle_decoupable (Fos.ech (T := T) (C := C) add neg mul)
  refine ⟨?_, fun _ _ _ _ _ _ => trivial, ?_⟩
  · rintro ⟨ss, g, r⟩ _
    simp only [Chaine.step, hS.1 ss trivial]
    cases r with
    | none => rfl
    | some f => simp only [Fos.step]; rw [hF.1 f trivial]
  · rintro ⟨ss, g, r⟩ a b _
    simp only [Chaine.step]
    rw [hS.2.2 ss a b trivial]
    cases e1 : Chaine.sectionsStep add sub mul ss a with
    | none => rfl
    | some p =>
      obtain ⟨ss1, y1⟩ := p
      simp only
      cases r with
      | none =>
        simp only
        cases e2 : Chaine.sectionsStep add sub mul ss1 b with
        | none => rfl
        | some q => obtain ⟨ss2, y2⟩ := q; simp
      | some f =>
        simp only
        cases e2 : Chaine.sectionsStep add sub mul ss1 b with
        | none =>
          simp only
          cases Fos.step add neg mul f y1 <;> simp [e2]
        | some q =>
          obtain ⟨ss2, y2⟩ := q
          simp only [Fos.step]
          rw [hF.2.2 f y1 y2 trivial]
          cases e3 : boucle (Fos.ech add neg mul) f y1 with
          | none => rfl
          | some t =>
            obtain ⟨f1, z1⟩ := t
            simp only [e2]
            cases boucle (Fos.ech add neg mul) f1 y2 <;> rfl

/-! ## C45: second-order sections -/

section ordre2
variable {R : Type} [Field R]

theorem sois1_eq (xs : List R) : ∀ (s s' : Sois R R) (ys : List R),
    boucle (Sois.ech1 (· + ·) (· - ·) (· * ·)) s xs = some (s', ys) → ys.length = xs.length ∧ ∀ n, n < xs.length →
      (s.y2 :: s.y1 :: ys).getD (n + 2) 0 =
        s.b0 * (s.x2 :: s.x1 :: xs).getD (n + 2) 0 + s.b1 * (s.x2 :: s.x1 :: xs).getD (n + 1) 0 +
        s.b2 * (s.x2 :: s.x1 :: xs).getD n 0 -
        s.a1 * (s.y2 :: s.y1 :: ys).getD (n + 1) 0 - s.a2 * (s.y2 :: s.y1 :: ys).getD n 0 := by
  induction xs with
  | nil => intro s s' ys h; simp only [boucle, Option.some.injEq, Prod.mk.injEq] at h; rw [← h.2]; simp
  | cons x xs ih =>
    intro s s' ys h
    simp only [boucle, Sois.ech1] at h
    split at h
    · simp at h
    · rename_i s2 ys2 e
      simp only [Option.some.injEq, Prod.mk.injEq] at h
      obtain ⟨hl, ho⟩ := ih _ _ _ e
      rw [← h.2]
      refine ⟨by simp [hl], ?_⟩
      intro n hn
      cases n with
      | zero => simp
      | succ n =>
        have := ho n (by simpa using hn)
        simpa using this

theorem sois2_eq (xs : List R) : ∀ (s s' : Sois R R) (ys : List R),
    boucle (Sois.ech2 (· + ·) (· - ·) (· * ·)) s xs = some (s', ys) → ys.length = xs.length ∧ ∃ d : List R,
      ∀ n, n < xs.length →
      (s.y0 :: s.y1 :: d).getD (n + 2) 0 = xs.getD n 0 - s.a1 * (s.y0 :: s.y1 :: d).getD (n + 1) 0 -
        s.a2 * (s.y0 :: s.y1 :: d).getD n 0 ∧
      ys.getD n 0 = s.b0 * (s.y0 :: s.y1 :: d).getD (n + 2) 0 + s.b1 * (s.y0 :: s.y1 :: d).getD (n + 1) 0 +
        s.b2 * (s.y0 :: s.y1 :: d).getD n 0 := by
  induction xs with
  | nil => intro s s' ys h; simp only [boucle, Option.some.injEq, Prod.mk.injEq] at h; rw [← h.2]; simp
  | cons x xs ih =>
    intro s s' ys h
    simp only [boucle, Sois.ech2] at h
    split at h
    · simp at h
    · rename_i s2 ys2 e
      simp only [Option.some.injEq, Prod.mk.injEq] at h
      obtain ⟨hl, d, ho⟩ := ih _ _ _ e
      rw [← h.2]
      refine ⟨by simp [hl], (x - s.a1 * s.y1 - s.a2 * s.y0) :: d, ?_⟩
      intro n hn
      cases n with
      | zero => simp
      | succ n =>
        have := ho n (by simpa using hn)
        simpa using this

theorem sois_tot1 (xs : List R) : ∀ s : Sois R R, ∃ s' ys,
    boucle (Sois.ech1 (· + ·) (· - ·) (· * ·)) s xs = some (s', ys) := by
  induction xs with
  | nil => intro s; exact ⟨_, _, rfl⟩
  | cons x xs ih =>
    intro s
    obtain ⟨s', ys, e⟩ := ih { s with
      y0 := s.b0 * x + s.b1 * s.x1 + s.b2 * s.x2 - s.a1 * s.y1 - s.a2 * s.y2
      y2 := s.y1
      y1 := s.b0 * x + s.b1 * s.x1 + s.b2 * s.x2 - s.a1 * s.y1 - s.a2 * s.y2
      x2 := s.x1
      x1 := x }
    simp only [boucle, Sois.ech1, e]
    exact ⟨_, _, rfl⟩

theorem sois_tot2 (xs : List R) : ∀ s : Sois R R, ∃ s' ys,
    boucle (Sois.ech2 (· + ·) (· - ·) (· * ·)) s xs = some (s', ys) := by
  induction xs with
  | nil => intro s; exact ⟨_, _, rfl⟩
  | cons x xs ih =>
    intro s
    obtain ⟨s', ys, e⟩ := ih { s with
      y2 := s.b0 * (x - s.a1 * s.y1 - s.a2 * s.y0) + s.b1 * s.y1 + s.b2 * s.y0
      y0 := s.y1
      y1 := x - s.a1 * s.y1 - s.a2 * s.y0 }
    simp only [boucle, Sois.ech2, e]
    exact ⟨_, _, rfl⟩

/-- **C45, direct form I.** A freshly configured second-order section (coefficients `b0 b1 b2 / a0 a1 a2`, `a0 ≠ 0`) fed with
any stream starting with `x0`, cut in any way, outputs the solution of the difference equation
`a0 y(n) + a1 y(n-1) + a2 y(n-2) = b0 x(n) + b1 x(n-1) + b2 x(n-2)` whose past (input and output, two samples) is `x0`.
`x0 :: x0 :: …` are the signals with these two virtual past samples, so index `n + 2` is time `n`. -/
theorem C45_forme1 [DecidableEq R] (b0 b1 b2 a0 a1 a2 x0 : R) (xs : List R) (h0 : a0 ≠ 0) (blocs : List (List R))
    (hb : blocs.flatten = x0 :: xs) :
    ∃ c s y, Sois.configure 0 0 (· / ·) b0 b1 b2 a0 a1 a2 false = some c ∧
      enchaine (Sois.step (· + ·) (· - ·) (· * ·)) c blocs = some (s, y) ∧ y.length = blocs.flatten.length ∧
      ∀ n, n < y.length →
        a0 * (x0 :: x0 :: y).getD (n + 2) 0 + a1 * (x0 :: x0 :: y).getD (n + 1) 0 + a2 * (x0 :: x0 :: y).getD n 0 =
        b0 * (x0 :: x0 :: blocs.flatten).getD (n + 2) 0 + b1 * (x0 :: x0 :: blocs.flatten).getD (n + 1) 0 +
          b2 * (x0 :: x0 :: blocs.flatten).getD n 0 := by
  generalize hc : (⟨0, 0, 0, 0, 0, b0 / a0, b1 / a0, b2 / a0, a1 / a0, a2 / a0, true, false⟩ : Sois R R) = c
  refine ⟨c, ?_⟩
  rw [C18_sois, hb]
  obtain ⟨s', ys, e⟩ := sois_tot1 (x0 :: xs)
    (⟨x0, x0, x0, x0, x0, b0 / a0, b1 / a0, b2 / a0, a1 / a0, a2 / a0, false, false⟩ : Sois R R)
  obtain ⟨hl, ho⟩ := sois1_eq _ _ _ _ e
  refine ⟨s', ys, by simp only [Sois.configure, if_neg h0]; exact congrArg some hc, ?_, hl, ?_⟩
  · rw [← hc]; simp only [Sois.step]; exact e
  · intro n hn
    have := ho n (by omega)
    simp only at this
    rw [this]
    field_simp
    ring

/-- **C45, direct form II.** The output satisfies the difference equation from time 2 on. -/
theorem C45_forme2 [DecidableEq R] (b0 b1 b2 a0 a1 a2 x0 : R) (xs : List R) (h0 : a0 ≠ 0) (blocs : List (List R))
    (hb : blocs.flatten = x0 :: xs) :
    ∃ c s y, Sois.configure 0 0 (· / ·) b0 b1 b2 a0 a1 a2 true = some c ∧
      enchaine (Sois.step (· + ·) (· - ·) (· * ·)) c blocs = some (s, y) ∧ y.length = blocs.flatten.length ∧
      ∀ n, n + 2 < y.length →
        a0 * y.getD (n + 2) 0 + a1 * y.getD (n + 1) 0 + a2 * y.getD n 0 =
        b0 * blocs.flatten.getD (n + 2) 0 + b1 * blocs.flatten.getD (n + 1) 0 + b2 * blocs.flatten.getD n 0 := by
  generalize hc : (⟨0, 0, 0, 0, 0, b0 / a0, b1 / a0, b2 / a0, a1 / a0, a2 / a0, true, true⟩ : Sois R R) = c
  refine ⟨c, ?_⟩
  rw [C18_sois, hb]
  obtain ⟨s', ys, e⟩ := sois_tot2 (x0 :: xs)
    (⟨x0, x0, x0, x0, x0, b0 / a0, b1 / a0, b2 / a0, a1 / a0, a2 / a0, false, true⟩ : Sois R R)
  obtain ⟨hl, d, ho⟩ := sois2_eq _ _ _ _ e
  refine ⟨s', ys, by simp only [Sois.configure, if_neg h0]; exact congrArg some hc, ?_, hl, ?_⟩
  · rw [← hc]; simp only [Sois.step]; exact e
  · intro n hn
    obtain ⟨p0, q0⟩ := ho n (by omega)
    obtain ⟨p1, q1⟩ := ho (n + 1) (by omega)
    obtain ⟨p2, q2⟩ := ho (n + 2) (by omega)
    simp only at p0 p1 p2 q0 q1 q2
    rw [q0, q1, q2]
    generalize hD : x0 :: x0 :: d = D at *
    generalize hX : x0 :: xs = X at *
    have e0 : X.getD n 0 = D.getD (n + 2) 0 + a1 / a0 * D.getD (n + 1) 0 + a2 / a0 * D.getD n 0 := by rw [p0]; ring
    have e1 : X.getD (n + 1) 0 = D.getD (n + 3) 0 + a1 / a0 * D.getD (n + 2) 0 + a2 / a0 * D.getD (n + 1) 0 := by rw [p1]; ring
    have e2 : X.getD (n + 2) 0 = D.getD (n + 4) 0 + a1 / a0 * D.getD (n + 3) 0 + a2 / a0 * D.getD (n + 2) 0 := by rw [p2]; ring
    rw [e0, e1, e2]
    field_simp
    ring

/-- A unit-DC-gain section in direct form I passes a constant signal without any transient. -/
theorem C45_constante_forme1 [DecidableEq R] (b0 b1 b2 a0 a1 a2 c : R) (h0 : a0 ≠ 0)
    (hg : b0 + b1 + b2 = a0 + a1 + a2) (blocs : List (List R)) (hc : ∀ v ∈ blocs.flatten, v = c) :
    ∃ cf s, Sois.configure 0 0 (· / ·) b0 b1 b2 a0 a1 a2 false = some cf ∧
      enchaine (Sois.step (· + ·) (· - ·) (· * ·)) cf blocs = some (s, blocs.flatten) := by
  have key : ∀ (xs : List R) (s : Sois R R), (∀ v ∈ xs, v = c) → s.x1 = c → s.x2 = c → s.y1 = c → s.y2 = c →
      s.b0 + s.b1 + s.b2 = 1 + s.a1 + s.a2 → ∃ s', boucle (Sois.ech1 (· + ·) (· - ·) (· * ·)) s xs = some (s', xs) := by
    intro xs
    induction xs with
    | nil => intro s _ _ _ _ _ _; exact ⟨s, rfl⟩
    | cons x xs ih =>
      intro s hv h1 h2 h3 h4 h5
      have hx : x = c := hv x (by simp)
      have hy : s.b0 * x + s.b1 * s.x1 + s.b2 * s.x2 - s.a1 * s.y1 - s.a2 * s.y2 = c := by
        rw [hx, h1, h2, h3, h4]; linear_combination c * h5
      obtain ⟨s', e⟩ := ih { s with y0 := c, y2 := s.y1, y1 := c, x2 := s.x1, x1 := x }
        (fun v hv' => hv v (by simp [hv'])) hx h1 rfl h3 h5
      refine ⟨s', ?_⟩
      simp only [boucle, Sois.ech1, hy, e]
      rw [hx]
  generalize hcf : (⟨0, 0, 0, 0, 0, b0 / a0, b1 / a0, b2 / a0, a1 / a0, a2 / a0, true, false⟩ : Sois R R) = cf
  refine ⟨cf, ?_⟩
  rw [C18_sois]
  cases hx : blocs.flatten with
  | nil => exact ⟨cf, by simp only [Sois.configure, if_neg h0]; exact congrArg some hcf, rfl⟩
  | cons x0 xs =>
    rw [hx] at hc
    obtain ⟨s', e⟩ := key (x0 :: xs) ⟨x0, x0, x0, x0, x0, b0 / a0, b1 / a0, b2 / a0, a1 / a0, a2 / a0, false, false⟩ hc
      (hc x0 (by simp)) (hc x0 (by simp)) (hc x0 (by simp)) (hc x0 (by simp)) (by field_simp; exact hg)
    refine ⟨s', by simp only [Sois.configure, if_neg h0]; exact congrArg some hcf, ?_⟩
    rw [← hcf]; simp only [Sois.step]; exact e

end ordre2

/-- In direct form II the same initialisation is not the steady state: a unit-DC-gain section (here `1/2 / (1 - z⁻¹/2)`)
fed with the constant 1 does not output 1, and the two forms disagree. -/
theorem C45_constante_forme2_refute :
    ∃ (b0 b1 b2 a0 a1 a2 : ℚ) (c s s' : Sois ℚ ℚ) (y : List ℚ), b0 + b1 + b2 = a0 + a1 + a2 ∧
      Sois.configure 0 0 (· / ·) b0 b1 b2 a0 a1 a2 true = some c ∧
      Sois.step (· + ·) (· - ·) (· * ·) c [1, 1] = some (s, y) ∧ y ≠ [1, 1] ∧
      Sois.step (· + ·) (· - ·) (· * ·) { c with forme2 := false } [1, 1] = some (s', [1, 1]) := by
  refine ⟨1/2, 0, 0, 1, -1/2, 0, ⟨0, 0, 0, 0, 0, 1/2, 0, 0, -1/2, 0, true, true⟩,
    ⟨1, 1, 3/2, 7/4, 7/8, 1/2, 0, 0, -1/2, 0, false, true⟩, ⟨1, 1, 1, 1, 1, 1/2, 0, 0, -1/2, 0, false, false⟩,
    [3/4, 7/8], by norm_num, by simp [Sois.configure], ?_, by norm_num, ?_⟩
  · simp only [Sois.step, boucle, Sois.ech2]
    norm_num
  · simp only [Sois.step, boucle, Sois.ech1]
    norm_num

example : ([[], [5, 7], [1]] : List (List ℚ)).flatten = 5 :: [7, 1] ∧ (2 : ℚ) ≠ 0 ∧ (1 + 2 + 1 : ℚ) = 2 + 1 + 1 := by norm_num

/-! ## C46: exponential smoother -/

section lexp
variable {R : Type} [Field R]

private theorem lexp_eq (xs : List R) : ∀ (s : Lexp R R), ∃ s' ys,
    boucle (Lexp.ech (· + ·) (· - ·) (· * ·)) s xs = some (s', ys) ∧ ys.length = xs.length ∧
      ∀ n, n < xs.length → (s.acc :: ys).getD (n + 1) 0 =
        (1 - s.γ) * (s.acc :: ys).getD n 0 + s.γ * xs.getD n 0 := by
  induction xs with
  | nil => intro s; exact ⟨_, _, rfl, rfl, by simp⟩
  | cons x xs ih =>
    intro s
    obtain ⟨s', ys, e, hl, ho⟩ := ih { s with acc := s.acc + s.γ * (x - s.acc) }
    refine ⟨s', (s.acc + s.γ * (x - s.acc)) :: ys, by simp only [boucle, Lexp.ech, e], by simp [hl], ?_⟩
    intro n hn
    cases n with
    | zero => simp; ring
    | succ n =>
      have := ho n (by simpa using hn)
      simpa using this

/-- **C46 (equation).** `y(n) = (1-γ) y(n-1) + γ x(n)` with `y(-1) = x(0)`, for every non-empty stream and every cutting. -/
theorem C46_equation (γ x0 : R) (xs : List R) (blocs : List (List R)) (hb : blocs.flatten = x0 :: xs) :
    ∃ s y, enchaine (Lexp.step (· + ·) (· - ·) (· * ·)) ⟨0, γ, false⟩ blocs = some (s, y) ∧
      y.length = blocs.flatten.length ∧
      ∀ n, n < y.length → (x0 :: y).getD (n + 1) 0 = (1 - γ) * (x0 :: y).getD n 0 + γ * blocs.flatten.getD n 0 := by
  rw [C18_lexp, hb]
  obtain ⟨s', ys, e, hl, ho⟩ := lexp_eq (x0 :: xs) (⟨x0, γ, false⟩ : Lexp R R)
  refine ⟨{ s' with init := true }, ys, ?_, hl, ?_⟩
  · simp only [Lexp.step, Bool.false_eq_true, if_false, e]
  · intro n hn; exact ho n (by omega)

/-- **C46 (range).** With `0 ≤ γ ≤ 1`, every output stays between the smallest and the largest input seen. -/
theorem C46_bornes [LinearOrder R] [IsStrictOrderedRing R] (γ m M : R) (hγ : 0 ≤ γ) (hγ1 : γ ≤ 1) (blocs : List (List R))
    (hb : ∀ v ∈ blocs.flatten, m ≤ v ∧ v ≤ M) :
    ∃ s y, enchaine (Lexp.step (· + ·) (· - ·) (· * ·)) ⟨0, γ, false⟩ blocs = some (s, y) ∧
      y.length = blocs.flatten.length ∧ ∀ v ∈ y, m ≤ v ∧ v ≤ M := by
  cases hx : blocs.flatten with
  | nil => exact ⟨_, _, by rw [C18_lexp, hx]; rfl, rfl, by simp⟩
  | cons x0 xs =>
    obtain ⟨s, y, e, hl, ho⟩ := C46_equation γ x0 xs blocs hx
    refine ⟨s, y, e, by rw [← hx]; exact hl, ?_⟩
    have key : ∀ n, n < y.length + 1 → m ≤ (x0 :: y).getD n 0 ∧ (x0 :: y).getD n 0 ≤ M := by
      intro n
      induction n with
      | zero => intro _; simpa using hb x0 (by simp [hx])
      | succ n ih =>
        intro hn
        rw [ho n (by omega)]
        obtain ⟨h1, h2⟩ := ih (by omega)
        have h3 := hb (blocs.flatten.getD n 0) (by
          rw [List.getD_eq_getElem _ _ (by omega)]; exact List.getElem_mem _)
        have g1 : 0 ≤ 1 - γ := by linarith
        have i1 := mul_le_mul_of_nonneg_left h1 g1
        have i2 := mul_le_mul_of_nonneg_left h2 g1
        have i3 := mul_le_mul_of_nonneg_left h3.1 hγ
        have i4 := mul_le_mul_of_nonneg_left h3.2 hγ
        constructor <;> linarith
    intro v hv
    obtain ⟨n, hn, rfl⟩ := List.mem_iff_getElem.1 hv
    have := key (n + 1) (by omega)
    rwa [List.getD_cons_succ, List.getD_eq_getElem _ _ hn] at this

end lexp

example : (0 : ℚ) ≤ 1/4 ∧ (1/4 : ℚ) ≤ 1 ∧ ∀ v ∈ ([[1, 2], [], [3]] : List (List ℚ)).flatten, 1 ≤ v ∧ v ≤ 3 := by norm_num

/-! ## C47: DC blocker -/

section dc
variable {R : Type} [Field R]

private theorem dc_eq (xs : List R) : ∀ (s : Dc R R), ∃ s' ys,
    boucle (Dc.ech (· + ·) (· - ·) (· * ·)) s xs = some (s', ys) ∧ ys.length = xs.length ∧
      ∀ n, n < xs.length → (s.yp :: ys).getD (n + 1) 0 =
        s.α * ((s.xp :: xs).getD (n + 1) 0 - (s.xp :: xs).getD n 0 + (s.yp :: ys).getD n 0) := by
  induction xs with
  | nil => intro s; exact ⟨_, _, rfl, rfl, by simp⟩
  | cons x xs ih =>
    intro s
    obtain ⟨s', ys, e, hl, ho⟩ := ih { s with xp := x, yp := s.α * (x - s.xp + s.yp) }
    refine ⟨s', (s.α * (x - s.xp + s.yp)) :: ys, by simp only [boucle, Dc.ech, e], by simp [hl], ?_⟩
    intro n hn
    cases n with
    | zero => simp
    | succ n =>
      have := ho n (by simpa using hn)
      simpa using this

/-- **C47 (equation).** `y(n) = α (x(n) - x(n-1) + y(n-1))`, zero past. -/
theorem C47_equation (α : R) (blocs : List (List R)) :
    ∃ s y, enchaine (Dc.step (· + ·) (· - ·) (· * ·)) ⟨α, 0, 0⟩ blocs = some (s, y) ∧
      y.length = blocs.flatten.length ∧
      ∀ n, n < y.length → y.getD n 0 = α * (blocs.flatten.getD n 0 - passe blocs.flatten n 1 + passe y n 1) := by
  rw [C18_dc]
  obtain ⟨s', ys, e, hl, ho⟩ := dc_eq blocs.flatten (⟨α, 0, 0⟩ : Dc R R)
  refine ⟨s', ys, e, hl, ?_⟩
  intro n hn
  have := ho n (by omega)
  simp only [List.getD_cons_succ] at this
  rw [this]
  cases n with
  | zero => simp [passe]
  | succ n => simp [passe]

/-- **C47 (constant component).** A constant `c` starting at time 0 leaves the DC blocker as `α^(n+1) c`: it is removed
geometrically when `|α| < 1`. -/
theorem C47_constante (α c : R) (blocs : List (List R)) (hc : ∀ v ∈ blocs.flatten, v = c) :
    ∃ s y, enchaine (Dc.step (· + ·) (· - ·) (· * ·)) ⟨α, 0, 0⟩ blocs = some (s, y) ∧
      y.length = blocs.flatten.length ∧ ∀ n, n < y.length → y[n]? = some (α ^ (n + 1) * c) := by
  obtain ⟨s, y, e, hl, ho⟩ := C47_equation α blocs
  refine ⟨s, y, e, hl, ?_⟩
  have hx : ∀ n, n < blocs.flatten.length → blocs.flatten.getD n 0 = c := by
    intro n hn
    rw [List.getD_eq_getElem _ _ hn]; exact hc _ (List.getElem_mem _)
  intro n
  induction n with
  | zero =>
    intro hn
    have := ho 0 hn
    rw [hx 0 (by omega)] at this
    rw [List.getElem?_eq_getElem hn, ← List.getD_eq_getElem y 0 hn, this]
    simp [passe]
  | succ n ih =>
    intro hn
    have := ho (n + 1) hn
    rw [hx _ (by omega)] at this
    rw [List.getElem?_eq_getElem hn, ← List.getD_eq_getElem y 0 hn, this]
    have i := ih (by omega)
    have hy : y.getD n 0 = α ^ (n + 1) * c := by rw [List.getD_eq_getElem?_getD, i]; rfl
    simp only [passe, Nat.le_add_left, if_true, Nat.add_sub_cancel, hx n (by omega), hy]
    congr 1
    ring

end dc

example : ∀ v ∈ ([[3, 3], [3]] : List (List ℚ)).flatten, v = 3 := by norm_num

end Verif.Filtre
