import Verif.Filtre.PropsBlocs

/-!
# C44: in-place operation (`step(x, x)`: input and output vectors share their storage)

The buffer is a list that the loop overwrites position by position.  `surPlace` models the loops that read `x(i)` once,
before writing `y(i)`; the delay line and the DC blocker read `x(i)` again after `y(i)` has been written, so they have
their own in-place loops.
-/

namespace Verif.Filtre

/-- Sample loop on a shared buffer, reading `x(i)` before writing `y(i)`: core/src/filtrage/filtre-rt.cc:82-107 (FIR), 224-279 (IIR, two
passes on the same storage), 366-395 (second-order section), 427-432 (first order), 658-665 (moving average), 754-759
(exponential smoother).  Argument `i`: loop index; `n`: iterations left. -/
def surPlace {S T : Type} (f : S → T → Option (S × T)) : Nat → Nat → S → List T → Option (S × List T)
  | 0, _, s, buf => some (s, buf)
  | n + 1, i, s, buf =>
    match buf[i]? with
    | none => none
    | some x =>
      match f s x with
      | none => none
      | some (s', y) => surPlace f n (i + 1) s' (buf.set i y)

/-- Delay line on a shared buffer, core/src/filtrage/filtre-rt.cc:37-42: `y(i) = fenetre(ri); fenetre(ri) = x(i); ri = (ri + 1) % retard`,
where `x(i)` is now the value just written in `y(i)`. -/
def Retard.surPlace {T : Type} : Nat → Nat → Retard T → List T → Option (Retard T × List T)
  | 0, _, s, buf => some (s, buf)
  | n + 1, i, s, buf =>
    match s.fenetre[s.ri]? with
    | none => none
    | some y =>
      if i < buf.length then
        let buf := buf.set i y
        match buf[i]? with
        | none => none
        | some x =>
          if s.retard = 0 then none
          else Retard.surPlace n (i + 1) { s with fenetre := s.fenetre.set s.ri x, ri := (s.ri + 1) % s.retard } buf
      else none

/-- DC blocker on a shared buffer, core/src/filtrage/filtre-rt.cc:622-627: `y(i) = α*((x(i) - xp) + yp); xp = x(i); yp = y(i)`, where the
second `x(i)` is the value just written. -/
def Dc.surPlace {T C : Type} (add sub : T → T → T) (mul : C → T → T) : Nat → Nat → Dc T C → List T → Option (Dc T C × List T)
  | 0, _, s, buf => some (s, buf)
  | n + 1, i, s, buf =>
    match buf[i]? with
    | none => none
    | some x =>
      let buf := buf.set i (mul s.α (add (sub x s.xp) s.yp))
      match buf[i]? with
      | none => none
      | some v => Dc.surPlace add sub mul n (i + 1) { s with xp := v, yp := v } buf

private theorem surPlace_eq {S T : Type} (f : S → T → Option (S × T)) (xs : List T) : ∀ (pre : List T) (s : S),
    surPlace f xs.length pre.length s (pre ++ xs) =
      match boucle f s xs with
      | none => none
      | some (s', y) => some (s', pre ++ y) := by
  induction xs with
  | nil => intro pre s; simp [surPlace, boucle]
  | cons x xs ih =>
    intro pre s
    simp only [List.length_cons, surPlace, boucle]
    rw [List.getElem?_append_right (Nat.le_refl _), Nat.sub_self, List.getElem?_cons_zero]
    simp only
    cases f s x with
    | none => rfl
    | some p =>
      obtain ⟨s', y⟩ := p
      simp only
      rw [List.set_append_right _ _ (Nat.le_refl _), Nat.sub_self, List.set_cons_zero]
      have := ih (pre ++ [y]) s'
      simp only [List.length_append, List.length_singleton, List.append_assoc, List.singleton_append] at this
      rw [this]
      cases boucle f s' xs <;> simp

/-- **C44.** Every filter whose loop reads its input sample before writing its output sample (FIR, second-order section in either
form, first-order section, moving average, exponential smoother) gives, on a shared buffer, exactly the state and the samples
of the out-of-place call — for all states, blocks and sample functions. -/
theorem C44_sur_place {S T : Type} (f : S → T → Option (S × T)) (s : S) (x : List T) :
    surPlace f x.length 0 s x = boucle f s x := by
  have := surPlace_eq f x [] s
  simp only [List.length_nil, List.nil_append] at this
  rw [this]
  cases boucle f s x <;> rfl

/-- **C44 (IIR).** The two passes of the recursive filter on one shared buffer. -/
theorem C44_sur_place_rii {T C : Type} (zero : T) (add sub : T → T → T) (mul div : T → C → T) (s : Rii T C) (x : List T) :
    (match surPlace (Rii.echX zero add mul) x.length 0 s x with
     | none => none
     | some (s', buf) => surPlace (Rii.echY sub mul div) buf.length 0 s' buf) = Rii.step zero add sub mul div s x := by
  rw [C44_sur_place]
  unfold Rii.step
  cases boucle (Rii.echX zero add mul) s x with
  | none => rfl
  | some p => simp only; rw [C44_sur_place]

/-- **C44 fails for the delay line**: used in place, a line of `k ≥ 1` samples outputs only zeros, whatever the input. -/
theorem C44_retard_refute {T : Type} (zero : T) (k : Nat) (hk : 0 < k) (x : List T) :
    ∃ s, Retard.surPlace x.length 0 (Retard.init zero k) x = some (s, List.replicate x.length zero) := by
  have key : ∀ (xs pre : List T) (s : Retard T), s.fenetre = List.replicate k zero → s.ri < k → s.retard = k →
      ∃ s', Retard.surPlace xs.length pre.length s (pre ++ xs) = some (s', pre ++ List.replicate xs.length zero) := by
    intro xs
    induction xs with
    | nil => intro pre s _ _ _; exact ⟨s, by simp [Retard.surPlace]⟩
    | cons x xs ih =>
      intro pre s h1 h2 h3
      have hf : s.fenetre[s.ri]? = some zero := by rw [h1]; simp [h2]
      have hset : s.fenetre.set s.ri zero = List.replicate k zero := by rw [h1]; simp
      obtain ⟨s', e⟩ := ih (pre ++ [zero]) { s with fenetre := s.fenetre.set s.ri zero, ri := (s.ri + 1) % k } hset
        (Nat.mod_lt _ hk) h3
      refine ⟨s', ?_⟩
      simp only [List.length_append, List.length_singleton, List.append_assoc, List.singleton_append, h3] at e
      simp only [List.length_cons, Retard.surPlace, hf]
      rw [if_pos (by simp), List.set_append_right _ _ (Nat.le_refl _), Nat.sub_self, List.set_cons_zero,
        List.getElem?_append_right (Nat.le_refl _), Nat.sub_self, List.getElem?_cons_zero]
      simp only [h3]
      rw [if_neg (by omega), e, List.replicate_succ]
  obtain ⟨s, e⟩ := key x [] (Retard.init zero k) rfl hk rfl
  exact ⟨s, by simpa using e⟩

/-- **C44 fails for the DC blocker**: used in place (exact arithmetic) it is a mere gain `α` from rest, no component is removed. -/
theorem C44_dc_refute {R : Type} [Field R] (α : R) (x : List R) :
    ∃ s, Dc.surPlace (· + ·) (· - ·) (· * ·) x.length 0 ⟨α, 0, 0⟩ x = some (s, x.map (α * ·)) := by
  have key : ∀ (xs pre : List R) (s : Dc R R), s.α = α → s.xp = s.yp →
      ∃ s', Dc.surPlace (· + ·) (· - ·) (· * ·) xs.length pre.length s (pre ++ xs) = some (s', pre ++ xs.map (α * ·)) := by
    intro xs
    induction xs with
    | nil => intro pre s _ _; exact ⟨s, by simp [Dc.surPlace]⟩
    | cons x xs ih =>
      intro pre s h1 h2
      obtain ⟨s', e⟩ := ih (pre ++ [α * x]) { s with xp := α * x, yp := α * x } h1 rfl
      refine ⟨s', ?_⟩
      simp only [List.length_append, List.length_singleton, List.append_assoc, List.singleton_append] at e
      simp only [List.length_cons, Dc.surPlace]
      rw [List.getElem?_append_right (Nat.le_refl _), Nat.sub_self, List.getElem?_cons_zero]
      simp only
      rw [show s.α * (x - s.xp + s.yp) = α * x by rw [h1, h2]; ring, List.set_append_right _ _ (Nat.le_refl _), Nat.sub_self,
        List.set_cons_zero, List.getElem?_append_right (Nat.le_refl _), Nat.sub_self, List.getElem?_cons_zero]
      simp only
      rw [e, List.map_cons]
  obtain ⟨s, e⟩ := key x [] ⟨α, 0, 0⟩ rfl rfl
  exact ⟨s, by simpa using e⟩

/-- The in-place delay line really differs from the out-of-place one (C21) on a concrete signal. -/
example : (0 : Nat) < 1 ∧ Retard.step (Retard.init 0 1) [1, 2, 3] = some (⟨[3], 0, 1⟩, [0, 1, 2]) ∧
    Retard.surPlace 3 0 (Retard.init 0 1) [1, 2, 3] = some (⟨[0], 0, 1⟩, [0, 0, 0]) :=
  ⟨by decide, rfl, rfl⟩

end Verif.Filtre
