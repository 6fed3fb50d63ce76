import Verif.Filtre.Sim
import Verif.Filtre.Spec
import Mathlib.Algebra.BigOperators.Intervals
import Mathlib.Algebra.BigOperators.Ring.Finset
import Mathlib.Algebra.Field.Basic
import Mathlib.Algebra.Field.Rat
import Mathlib.Tactic.Ring
import Mathlib.Tactic.FieldSimp
import Mathlib.Tactic.NormNum

/-! # Properties C18–C23: streaming filters -/

namespace Verif.Filtre

/-! ## Auxiliary -/

theorem mac_add_sum {R : Type} [CommSemiring R] (w c : List R) (s : R) (h : w.length = c.length) :
    mac (· + ·) (· * ·) s w c = s + ∑ i ∈ Finset.range c.length, w.getD i 0 * c.getD i 0 := by
  induction w generalizing c s with
  | nil => cases c with
    | nil => simp [mac]
    | cons => simp at h
  | cons a w ih => cases c with
    | nil => simp at h
    | cons b c =>
      simp only [mac]
      rw [ih c _ (by simpa using h), List.length_cons, Finset.sum_range_succ']
      simp only [List.getD_cons_succ, List.getD_cons_zero]
      ring

private theorem mac_sub_sum {R : Type} [CommRing R] (w c : List R) (s : R) (h : w.length = c.length) :
    mac (· - ·) (· * ·) s w c = s - ∑ i ∈ Finset.range c.length, w.getD i 0 * c.getD i 0 := by
  induction w generalizing c s with
  | nil => cases c with
    | nil => simp [mac]
    | cons => simp at h
  | cons a w ih => cases c with
    | nil => simp at h
    | cons b c =>
      simp only [mac]
      rw [ih c _ (by simpa using h), List.length_cons, Finset.sum_range_succ']
      simp only [List.getD_cons_succ, List.getD_cons_zero]
      ring

theorem getD_reverse {R : Type} [Zero R] (c : List R) (i : Nat) (h : i < c.length) :
    c.reverse.getD i 0 = c.getD (c.length - 1 - i) 0 := by
  rw [List.getD_eq_getElem?_getD, List.getD_eq_getElem?_getD, List.getElem?_reverse h]

/-- The last-`K` window of `x.take (n+1)`, read backwards, is `x(n), x(n-1), …`. -/
theorem derniers_passe {R : Type} [Zero R] (K : Nat) (x : List R) (n k : Nat) (hn : n < x.length) (hk : k < K) :
    (derniers (0 : R) K (x.take (n + 1))).getD (K - 1 - k) 0 = passe x n k := by
  rw [List.getD_eq_getElem?_getD, derniers_getElem? _ _ _ _ (by omega)]
  have hl : (x.take (n + 1)).length = n + 1 := by simp; omega
  rw [hl]
  unfold passe
  by_cases h : k ≤ n
  · rw [if_pos (by omega), if_pos h]
    simp only [Option.getD_some]
    rw [show n + 1 + (K - 1 - k) - K = n - k by omega, List.getD_eq_getElem?_getD, List.getD_eq_getElem?_getD,
      List.getElem?_take, if_pos (by omega)]
  · rw [if_neg (by omega), if_neg h]; rfl

theorem window_sum {R : Type} [CommSemiring R] (c x : List R) (n : Nat) (hn : n < x.length) :
    mac (· + ·) (· * ·) 0 (derniers 0 c.length (x.take (n + 1))) c.reverse = convolution c x n := by
  rw [mac_add_sum _ _ _ (by simp [derniers_length]), zero_add, List.length_reverse]
  unfold convolution
  rw [← Finset.sum_range_reflect]
  refine Finset.sum_congr rfl fun k hk => ?_
  have hk := Finset.mem_range.1 hk
  rw [derniers_passe _ _ _ _ hn hk, getD_reverse _ _ (by omega), show c.length - 1 - (c.length - 1 - k) = k by omega]
  ring

/-! ## C18: block invariance (no algebra, hence valid for floats) -/

/-- **C18 (FIR).** Any cutting of the stream into blocks gives the result of one call (state included). -/
theorem C18_rif {T C : Type} (zero : T) (add : T → T → T) (mul : T → C → T) (c : List C) (hc : 0 < c.length)
    (blocs : List (List T)) :
    enchaine (Rif.step zero add mul) (Rif.init zero c) blocs = Rif.step zero add mul (Rif.init zero c) blocs.flatten ∧
    ∃ s y, Rif.step zero add mul (Rif.init zero c) blocs.flatten = some (s, y) ∧ y.length = blocs.flatten.length := by
  have hd : Decoupable (Rif.step (T := T) (C := C) zero add mul) (fun s => s.K = c.length) := by
    have hb := boucle_decoupable (Rif.ech (T := T) (C := C) zero add mul)
    have keep : ∀ xs s s' (y : List T), boucle (Rif.ech (T := T) (C := C) zero add mul) s xs = some (s', y) → s'.K = s.K := by
      intro xs
      induction xs with
      | nil => intro s s' y h; simp [boucle] at h; rw [h.1]
      | cons x xs ih =>
        intro s s' y h
        simp only [boucle] at h
        cases e : Rif.ech zero add mul s x with
        | none => simp [e] at h
        | some p =>
          obtain ⟨s1, y1⟩ := p
          rw [e] at h
          simp only at h
          cases e2 : boucle (Rif.ech zero add mul) s1 xs with
          | none => simp [e2] at h
          | some q =>
            obtain ⟨s2, y2⟩ := q
            simp only [e2, Option.some.injEq, Prod.mk.injEq] at h
            rw [← h.1, ih s1 s2 y2 e2]
            simp only [Rif.ech] at e
            repeat' split at e
            all_goals first | (simp at e; done) | (simp only [Option.some.injEq, Prod.mk.injEq] at e; rw [← e.1])
    have hstep : ∀ s : Rif T C, s.K = c.length → ∀ x, Rif.step zero add mul s x = boucle (Rif.ech zero add mul) s x := by
      intro s hs x
      unfold Rif.step
      rw [if_neg (by omega)]
    refine ⟨fun s hs => by rw [hstep s hs]; exact hb.1 s trivial, ?_, ?_⟩
    · intro s a s' y hs h
      rw [hstep s hs] at h
      rw [keep _ _ _ _ h, hs]
    · intro s a b hs
      rw [hstep s hs, hstep s hs, hb.2.2 s a b trivial]
      cases e : boucle (Rif.ech zero add mul) s a with
      | none => rfl
      | some p =>
        obtain ⟨s', y⟩ := p
        simp only
        rw [hstep s' (by rw [keep _ _ _ _ e, hs])]
  refine ⟨enchaine_eq _ _ hd blocs _ rfl, ?_⟩
  obtain ⟨s', ys, e, _, hl, _⟩ := boucle_hist _ (Rif.Rep zero c) (fun h => mac add mul zero (derniers zero c.length h) c.reverse)
    (fun s h x hr => Rif.rep_ech zero add mul c s h x hr) blocs.flatten _ [] (Rif.rep_init zero c hc)
  refine ⟨s', ys, ?_, hl⟩
  unfold Rif.step
  rw [if_neg (by simp only [Rif.init]; omega)]
  exact e

/-- **C19.** From reset, output `n` of the FIR filter is `∑_{k<K} h_k x(n-k)` with zero past: for every number of
coefficients and every input, however it is cut into blocks; no access leaves the buffers. -/
theorem C19_convolution {R : Type} [CommSemiring R] (c : List R) (hc : 0 < c.length) (blocs : List (List R)) :
    ∃ s y, enchaine (Rif.step (0 : R) (· + ·) (· * ·)) (Rif.init 0 c) blocs = some (s, y) ∧
      y.length = blocs.flatten.length ∧ ∀ n, n < y.length → y[n]? = some (convolution c blocs.flatten n) := by
  rw [(C18_rif (0 : R) (· + ·) (· * ·) c hc blocs).1]
  obtain ⟨s', ys, e, _, hl, ho⟩ := boucle_hist _ (Rif.Rep (0 : R) c)
    (fun h => mac (· + ·) (· * ·) 0 (derniers 0 c.length h) c.reverse)
    (fun s h x hr => Rif.rep_ech 0 (· + ·) (· * ·) c s h x hr) blocs.flatten _ [] (Rif.rep_init 0 c hc)
  refine ⟨s', ys, ?_, hl, ?_⟩
  · unfold Rif.step
    rw [if_neg (by simp only [Rif.init]; omega)]
    exact e
  · intro n hn
    rw [ho n (by omega)]
    simp only [List.nil_append]
    rw [window_sum c _ n (by omega)]

/-- A filter without coefficients is rejected. -/
theorem C19_sans_coefs {T C : Type} (zero : T) (add : T → T → T) (mul : T → C → T) (x : List T) :
    Rif.step zero add mul (Rif.init zero ([] : List C)) x = none := by simp [Rif.step, Rif.init]

example : (0 : Nat) < [1, 2, 3].length ∧ convolution [1, 2, 3] [1, 0, 5, 7] 3 = (7 + 2 * 5 + 3 * 0 : Int) := by
  refine ⟨by decide, ?_⟩
  simp [convolution, passe, Finset.sum_range_succ]

/-- **C21.** A delay line of `k` samples outputs `k` zeros, then the input unchanged, however the stream is cut. -/
theorem C21_retard {T : Type} (zero : T) (k : Nat) (blocs : List (List T)) :
    ∃ s, enchaine Retard.step (Retard.init zero k) blocs = some (s, retarde zero k blocs.flatten) := by
  by_cases hk : k = 0
  · subst hk
    refine ⟨Retard.init zero 0, ?_⟩
    have : ∀ s : Retard T, s.retard = 0 → enchaine Retard.step s blocs = some (s, blocs.flatten) := by
      intro s hs
      induction blocs with
      | nil => rfl
      | cons b bs ih =>
        have e : Retard.step s b = some (s, b) := by simp [Retard.step, hs]
        simp only [enchaine, e, ih, List.flatten_cons]
    rw [this _ rfl]
    simp [retarde]
  · have hstep : ∀ s : Retard T, s.retard = k → ∀ x, Retard.step s x = boucle Retard.ech s x := by
      intro s hs x
      unfold Retard.step
      rw [if_neg (by omega)]
    have hrun : ∀ (blocs : List (List T)) s h, Retard.Rep zero k s h →
        ∃ s' ys, enchaine Retard.step s blocs = some (s', ys) ∧ boucle Retard.ech s blocs.flatten = some (s', ys) := by
      intro blocs
      induction blocs with
      | nil => intro s h _; exact ⟨s, [], rfl, rfl⟩
      | cons b bs ih =>
        intro s h hr
        obtain ⟨s1, y1, e1, r1, _, _⟩ := boucle_hist Retard.ech (Retard.Rep zero k)
          (fun h => (derniers zero (k + 1) h).headD zero) (fun s h x hr => Retard.rep_ech zero k s h x hr) b s h hr
        obtain ⟨s2, y2, e2, e2'⟩ := ih s1 _ r1
        refine ⟨s2, y1 ++ y2, ?_, ?_⟩
        · simp only [enchaine, hstep s hr.1, e1, e2]
        · rw [List.flatten_cons, boucle_append, e1]
          simp only [e2']
    have hinit : Retard.Rep zero k (Retard.init zero k) [] := by
      refine ⟨rfl, by simp [Retard.init], by simp [Retard.init]; omega, by simp [Retard.init, tourne, derniers]⟩
    obtain ⟨s', ys, e1, e2⟩ := hrun blocs _ [] hinit
    obtain ⟨s2, ys2, e3, _, hl, ho⟩ := boucle_hist Retard.ech (Retard.Rep zero k)
      (fun h => (derniers zero (k + 1) h).headD zero) (fun s h x hr => Retard.rep_ech zero k s h x hr) blocs.flatten _ [] hinit
    rw [e3] at e2
    simp only [Option.some.injEq, Prod.mk.injEq] at e2
    obtain ⟨rfl, rfl⟩ := e2
    refine ⟨s2, ?_⟩
    rw [e1]
    congr 2
    generalize blocs.flatten = x at *
    apply List.ext_getElem?
    intro n
    by_cases hn : n < x.length
    · rw [ho n hn]
      unfold retarde
      rw [List.getElem?_take, if_pos hn]
      simp only [List.nil_append]
      have e0 := derniers_getElem? zero (k + 1) (x.take (n + 1)) 0 (by omega)
      have hl' : (x.take (n + 1)).length = n + 1 := by simp; omega
      rw [hl'] at e0
      cases hd : derniers zero (k + 1) (x.take (n + 1)) with
      | nil => rw [hd] at e0; simp at e0
      | cons a l =>
        rw [hd] at e0
        simp only [List.getElem?_cons_zero, Option.some.injEq, Nat.add_zero, Nat.add_le_add_iff_right] at e0
        rw [List.headD_cons, e0]
        by_cases hkn : k ≤ n
        · rw [if_pos hkn, List.getElem?_append_right (by simpa using hkn), List.length_replicate,
            List.getD_eq_getElem?_getD, List.getElem?_take, if_pos (by omega), show n + 1 - (k + 1) = n - k by omega,
            List.getElem?_eq_getElem (by omega)]
          rfl
        · rw [if_neg hkn, List.getElem?_append_left (by simp; omega), List.getElem?_replicate, if_pos (by omega)]
    · rw [List.getElem?_eq_none (by omega), List.getElem?_eq_none (by simp [retarde]; omega)]

example : retarde 0 2 [5, 6, 7] = [0, 0, 5] := by decide

/-! ## C22: decimator -/

/-- Keep a sample when the countdown is 0. -/
private def garde {T : Type} (R : Nat) : Nat → List T → List T
  | _, [] => []
  | 0, x :: xs => x :: garde R (R - 1) xs
  | c + 1, _ :: xs => garde R c xs

/-- Countdown after a block. -/
private def suite {T : Type} (R : Nat) : Nat → List T → Nat
  | c, [] => c
  | 0, _ :: xs => suite R (R - 1) xs
  | c + 1, _ :: xs => suite R c xs

private theorem garde_append {T : Type} (R : Nat) (a b : List T) : ∀ c,
    garde R c (a ++ b) = garde R c a ++ garde R (suite R c a) b ∧ suite R c (a ++ b) = suite R (suite R c a) b := by
  induction a with
  | nil => intro c; simp [garde, suite]
  | cons x a ih =>
    intro c
    cases c with
    | zero => simp [garde, suite, ih]
    | succ c => simp [garde, suite, ih]

private theorem garde_drop {T : Type} (R : Nat) (l : List T) : ∀ c, garde R c l = garde R 0 (l.drop c) := by
  induction l with
  | nil => intro c; simp [garde]
  | cons x l ih => intro c; cases c with
    | zero => rfl
    | succ c => simp only [garde, List.drop_succ_cons]; exact ih c

private theorem suite_le {T : Type} (R : Nat) (l : List T) : ∀ c, l.length ≤ c → suite R c l = c - l.length := by
  induction l with
  | nil => intro c _; simp [suite]
  | cons x l ih => intro c hc; cases c with
    | zero => simp at hc
    | succ c => simp only [suite, List.length_cons]; rw [ih c (by simpa using hc)]; omega

private theorem suite_drop {T : Type} (R : Nat) (l : List T) : ∀ c, c ≤ l.length → suite R c l = suite R 0 (l.drop c) := by
  induction l with
  | nil => intro c h; simp at h; subst h; rfl
  | cons x l ih => intro c h; cases c with
    | zero => rfl
    | succ c => simp only [suite, List.drop_succ_cons]; exact ih c (by simpa using h)

private theorem garde_zipIdx {T : Type} (R : Nat) (hR : 0 < R) (l : List T) : ∀ c N, c < R → (N + c) % R = 0 →
    ((l.zipIdx N).filter (fun p => p.2 % R = 0)).map Prod.fst = garde R c l := by
  induction l with
  | nil => intro c N _ _; simp [garde]
  | cons x l ih =>
    intro c N hc hN
    rw [List.zipIdx_cons]
    cases c with
    | zero =>
      simp only [Nat.add_zero] at hN
      rw [List.filter_cons_of_pos (by simpa using hN), List.map_cons, garde]
      congr 1
      refine ih (R - 1) (N + 1) (by omega) ?_
      rw [show N + 1 + (R - 1) = N + R by omega, Nat.add_mod_right, hN]
    | succ c =>
      have hne : ¬ (N % R = 0) := by
        intro h
        rw [Nat.add_mod, h, Nat.zero_add, Nat.mod_mod, Nat.mod_eq_of_lt hc] at hN
        omega
      rw [List.filter_cons_of_neg (by simpa using hne), garde]
      exact ih c (N + 1) (by omega) (by rw [← hN]; congr 1; omega)

private theorem lit_spec {T : Type} (R : Nat) (hR : 0 < R) (x : List T) : ∀ fuel i, x.length - i < fuel →
    ∃ i' : Nat, Decim.lit (R : Int) x fuel (i : Int) = some (garde R 0 (x.drop i), (i' : Int)) ∧
      i' = i + R * (garde R 0 (x.drop i)).length ∧ x.length ≤ i' ∧
      (i ≤ x.length → i' < x.length + R ∧ i' - x.length = suite R 0 (x.drop i)) ∧ (x.length ≤ i → i' = i) := by
  intro fuel
  induction fuel with
  | zero => intro i h; omega
  | succ fuel ih =>
    intro i hf
    unfold Decim.lit
    by_cases hi : i < x.length
    · rw [if_pos (by exact_mod_cast hi), if_pos (by omega)]
      rw [show ((i : Int)).toNat = i by omega, List.getElem?_eq_getElem hi]
      simp only
      obtain ⟨i', e, h1, h2, h3, h4⟩ := ih (i + R) (by omega)
      rw [show (i : Int) + (R : Int) = ((i + R : Nat) : Int) by push_cast; rfl, e]
      have hg : garde R 0 (x.drop i) = x[i] :: garde R 0 (x.drop (i + R)) := by
        rw [List.drop_eq_getElem_cons hi, garde, garde_drop, List.drop_drop, show i + 1 + (R - 1) = i + R by omega]
      refine ⟨i', by rw [hg], ?_, h2, ?_, fun h => by omega⟩
      · rw [hg, List.length_cons, h1, Nat.mul_add]; omega
      · intro _
        by_cases hle : i + R ≤ x.length
        · obtain ⟨h5, h6⟩ := h3 hle
          refine ⟨h5, ?_⟩
          rw [h6, List.drop_eq_getElem_cons hi, suite, suite_drop R (x.drop (i + 1)) (R - 1) (by simp; omega),
            List.drop_drop, show i + 1 + (R - 1) = i + R by omega]
        · have := h4 (by omega)
          refine ⟨by omega, ?_⟩
          rw [this, List.drop_eq_getElem_cons hi, suite, suite_le _ _ _ (by simp; omega)]
          simp; omega
    · rw [if_neg (by exact_mod_cast hi)]
      rw [List.drop_of_length_le (by omega)]
      refine ⟨i, rfl, by simp [garde], by omega, ?_, fun _ => rfl⟩
      intro h
      refine ⟨by omega, by simp [suite]; omega⟩

private theorem decim_step {T : Type} (R : Nat) (hR : 0 < R) (c : Nat) (hc : c < R) (x : List T) :
    Decim.step ⟨R, c⟩ x = some (⟨R, suite R c x⟩, garde R c x) ∧ suite R c x < R := by
  obtain ⟨i', e, h1, h2, h3, h4⟩ := lit_spec R hR x (x.length + 1) c (by omega)
  have hs : i' - x.length = suite R c x := by
    by_cases h : c ≤ x.length
    · rw [(h3 h).2, suite_drop _ _ _ h]
    · rw [h4 (by omega), suite_le _ _ _ (by omega)]
  have hlt : i' < x.length + R := by
    by_cases h : c ≤ x.length
    · exact (h3 h).1
    · rw [h4 (by omega)]; omega
  refine ⟨?_, by omega⟩
  unfold Decim.step
  simp only
  rw [if_neg (by omega), e]
  simp only
  rw [← garde_drop] at h1 ⊢
  rw [if_pos]
  · congr 2
    simp only [Decim.mk.injEq, true_and]
    omega
  · rw [Int.tdiv_eq_ediv_of_nonneg (by omega)]
    symm
    have : (x.length : Int) + R - 1 - c = (x.length + R - 1 - i') + R * (garde R c x).length := by
      have : (i' : Int) = c + R * (garde R c x).length := by exact_mod_cast h1
      omega
    rw [this, Int.add_mul_ediv_left _ _ (by omega), Int.ediv_eq_zero_of_lt (by omega) (by omega), Int.zero_add]

/-- **C22.** For every R ≥ 1 and every cutting of the stream (including blocks shorter than R, and empty ones), the
decimator outputs exactly the samples of global index 0, R, 2R, …; its internal checks never fail. -/
theorem C22_un_sur_R {T : Type} (R : Nat) (hR : 0 < R) (blocs : List (List T)) :
    ∃ s, enchaine Decim.step ⟨R, 0⟩ blocs = some (s, unSur R blocs.flatten) := by
  have h : ∀ c, c < R → ∃ s, enchaine Decim.step ⟨R, c⟩ blocs = some (s, garde R c blocs.flatten) := by
    induction blocs with
    | nil => intro c _; exact ⟨⟨R, c⟩, by simp [enchaine, garde]⟩
    | cons b bs ih =>
      intro c hc
      obtain ⟨e, hlt⟩ := decim_step R hR c hc b
      obtain ⟨s, e2⟩ := ih _ hlt
      refine ⟨s, ?_⟩
      simp only [enchaine, e, e2, List.flatten_cons, (garde_append R b bs.flatten c).1]
  obtain ⟨s, e⟩ := h 0 hR
  exact ⟨s, by rw [← Int.natCast_zero, e]; unfold unSur; rw [garde_zipIdx R hR _ 0 0 hR (by simp)]⟩

/-- **C18 (decimator).** Block invariance, state included. -/
theorem C18_decimateur {T : Type} (R : Nat) (hR : 0 < R) (blocs : List (List T)) :
    enchaine Decim.step ⟨R, 0⟩ blocs = Decim.step ⟨R, 0⟩ blocs.flatten := by
  have h : ∀ c, c < R → enchaine Decim.step ⟨R, c⟩ blocs = Decim.step ⟨R, c⟩ blocs.flatten := by
    induction blocs with
    | nil => intro c hc; rw [List.flatten_nil, (decim_step R hR c hc []).1]; simp [enchaine, garde, suite]
    | cons b bs ih =>
      intro c hc
      obtain ⟨e, hlt⟩ := decim_step R hR c hc b
      rw [List.flatten_cons, (decim_step R hR c hc _).1, (garde_append R b bs.flatten c).1, (garde_append R b bs.flatten c).2]
      simp only [enchaine, e, ih _ hlt, (decim_step R hR _ hlt _).1]
  exact h 0 hR

/-- The decimator is a stream operator in every state it can reach; it never fails. -/
theorem decim_decoupable {T : Type} (R : Nat) (hR : 0 < R) : Decoupable (Decim.step (T := T)) (fun s => ∃ c : Nat, c < R ∧ s = ⟨R, c⟩) := by
  refine ⟨?_, ?_, ?_⟩
  · rintro s ⟨c, hc, rfl⟩
    rw [(decim_step R hR c hc []).1]
    simp [garde, suite]
  · rintro s a s' y ⟨c, hc, rfl⟩ h
    obtain ⟨e, hlt⟩ := decim_step R hR c hc a
    rw [e] at h
    simp only [Option.some.injEq, Prod.mk.injEq] at h
    exact ⟨_, hlt, h.1.symm⟩
  · rintro s a b ⟨c, hc, rfl⟩
    obtain ⟨e, hlt⟩ := decim_step R hR c hc a
    rw [e, (decim_step R hR c hc _).1, (garde_append R a b c).1, (garde_append R a b c).2]
    simp only
    rw [(decim_step R hR _ hlt b).1]

theorem decim_total {T : Type} (R : Nat) (hR : 0 < R) (c : Nat) (hc : c < R) (x : List T) : (Decim.step ⟨R, c⟩ x).isSome := by
  rw [(decim_step R hR c hc x).1]; rfl

/-- Number of samples kept by a new decimator. -/
theorem decim_longueur {T : Type} (R : Nat) (hR : 0 < R) (x : List T) : ∃ s y, Decim.step ⟨R, 0⟩ x = some (s, y) ∧ x.length ≤ R * y.length ∧ R * y.length < x.length + R := by
  obtain ⟨e, -⟩ := decim_step R hR 0 hR x
  obtain ⟨i', -, h1, h2, h3, -⟩ := lit_spec R hR x (x.length + 1) 0 (by omega)
  rw [List.drop_zero] at h1 h3
  have := (h3 (Nat.zero_le _)).1
  exact ⟨_, _, e, by omega, by omega⟩

example : (0 : Nat) < 3 ∧ unSur 3 ["a", "b", "c", "d", "e", "f", "g", "h"] = ["a", "d", "g"] := by decide

/-! ## C20: recursive filter -/

/-- **C20.** For every numerator `b` (at least one coefficient) and every denominator `a0, a` with `a0 ≠ 0` and at least
one recursive coefficient, and for every cutting of the stream, the outputs satisfy
`a0 y(n) = ∑_k b_k x(n-k) - ∑_{k≥1} a_k y(n-k)` with zero past; no access leaves the buffers. -/
theorem C20_equation {R : Type} [Field R] (b : List R) (a0 : R) (a : List R) (hb : 0 < b.length) (ha : 0 < a.length)
    (h0 : a0 ≠ 0) (blocs : List (List R)) :
    ∃ s0 s y, Rii.init 0 b (a0 :: a) = some s0 ∧
      enchaine (Rii.step (0 : R) (· + ·) (· - ·) (· * ·) (· / ·)) s0 blocs = some (s, y) ∧
      y.length = blocs.flatten.length ∧
      ∀ n, n < y.length → a0 * y.getD n 0 =
        convolution b blocs.flatten n - ∑ k ∈ Finset.range a.length, a.getD k 0 * passe y n (k + 1) := by
  obtain ⟨s0, e0, rX, rY⟩ := Rii.rep_init (0 : R) b a0 a hb ha
  have run : ∀ (blocs : List (List R)) s hx hy, Rii.RepX 0 b (a0 :: a) s hx → Rii.RepY 0 b (a0 :: a) s hy →
      ∃ s', enchaine (Rii.step (0 : R) (· + ·) (· - ·) (· * ·) (· / ·)) s blocs =
        some (s', Rii.pur (0 : R) (· + ·) (· - ·) (· * ·) (· / ·) b a0 a hx hy blocs.flatten) := by
    intro blocs
    induction blocs with
    | nil => intro s hx hy _ _; exact ⟨s, by simp [enchaine, Rii.pur]⟩
    | cons bl bs ih =>
      intro s hx hy h1 h2
      obtain ⟨s1, e1, r1, r1'⟩ := Rii.step_pur (0 : R) (· + ·) (· - ·) (· * ·) (· / ·) b a0 a s hx hy bl h1 h2
      obtain ⟨s2, e2⟩ := ih s1 _ _ r1 r1'
      refine ⟨s2, ?_⟩
      simp only [enchaine, e1, e2, List.flatten_cons, Rii.pur_append]
  obtain ⟨s, e⟩ := run blocs s0 [] [] rX rY
  refine ⟨s0, s, _, e0, e, ?_, ?_⟩
  · have : ∀ xs hx hy, (Rii.pur (0 : R) (· + ·) (· - ·) (· * ·) (· / ·) b a0 a hx hy xs).length = xs.length := by
      intro xs
      induction xs with
      | nil => intro hx hy; rfl
      | cons x xs ih => intro hx hy; simp [Rii.pur, ih]
    exact this _ _ _
  · generalize blocs.flatten = x
    -- the n-th output, as a function of the histories
    have out : ∀ xs hx hy n, hx.length = hy.length → n < xs.length →
        a0 * (hy ++ Rii.pur (0 : R) (· + ·) (· - ·) (· * ·) (· / ·) b a0 a hx hy xs).getD (hy.length + n) 0 =
        convolution b (hx ++ xs) (hx.length + n) - ∑ k ∈ Finset.range a.length, a.getD k 0 *
          passe (hy ++ Rii.pur (0 : R) (· + ·) (· - ·) (· * ·) (· / ·) b a0 a hx hy xs) (hy.length + n) (k + 1) := by
      intro xs
      induction xs with
      | nil => intro hx hy n _ hn; simp at hn
      | cons x xs ih =>
        intro hx hy n hl hn
        generalize hy0 : Rii.outY (0 : R) (· - ·) (· * ·) (· / ·) a0 a hy (Rii.outX 0 (· + ·) (· * ·) b (hx ++ [x])) = y0
        have hp : Rii.pur (0 : R) (· + ·) (· - ·) (· * ·) (· / ·) b a0 a hx hy (x :: xs) =
            y0 :: Rii.pur (0 : R) (· + ·) (· - ·) (· * ·) (· / ·) b a0 a (hx ++ [x]) (hy ++ [y0]) xs := by
          simp only [Rii.pur, hy0]
        rw [hp]
        cases n with
        | succ n =>
          have := ih (hx ++ [x]) (hy ++ [y0]) n (by simp [hl]) (by simpa using hn)
          simp only [List.append_assoc, List.singleton_append, List.length_append, List.length_singleton] at this
          rw [show hy.length + (n + 1) = hy.length + 1 + n by omega, show hx.length + (n + 1) = hx.length + 1 + n by omega]
          exact this
        | zero =>
          have hg : (hy ++ y0 :: Rii.pur (0 : R) (· + ·) (· - ·) (· * ·) (· / ·) b a0 a (hx ++ [x]) (hy ++ [y0]) xs).getD
              (hy.length + 0) 0 = y0 := by
            rw [List.getD_eq_getElem?_getD, List.getElem?_append_right (by omega)]
            simp
          rw [hg, ← hy0]
          unfold Rii.outY
          rw [mul_div_cancel₀ _ h0, mac_sub_sum _ _ _ (by simp [derniers_length])]
          have e1 : Rii.outX (0 : R) (· + ·) (· * ·) b (hx ++ [x]) = convolution b (hx ++ x :: xs) (hx.length + 0) := by
            have ht : hx ++ [x] = (hx ++ x :: xs).take (hx.length + 0 + 1) := by
              rw [Nat.add_zero, List.take_append, List.take_of_length_le (by omega), Nat.add_sub_cancel_left]; rfl
            unfold Rii.outX
            rw [ht, window_sum _ _ _ (by simp)]
            rfl
          rw [e1]
          congr 1
          refine Finset.sum_congr rfl fun k hk => ?_
          have hk := Finset.mem_range.1 hk
          rw [mul_comm]
          congr 1
          rw [getD_reverse _ _ (by rw [derniers_length]; exact hk), derniers_length]
          unfold passe
          rw [List.getD_eq_getElem?_getD, derniers_getElem? _ _ _ _ (by omega), Option.getD_some]
          simp only [Nat.add_zero]
          by_cases hle : k + 1 ≤ hy.length
          · rw [if_pos (by omega), if_pos hle]
            rw [List.getD_eq_getElem?_getD, List.getD_eq_getElem?_getD, List.getElem?_append_left (by omega)]
            congr 2; omega
          · rw [if_neg (by omega), if_neg hle]
    intro n hn
    have hlen : ∀ xs hx hy, (Rii.pur (0 : R) (· + ·) (· - ·) (· * ·) (· / ·) b a0 a hx hy xs).length = xs.length := by
      intro xs
      induction xs with
      | nil => intro hx hy; rfl
      | cons x xs ih => intro hx hy; simp [Rii.pur, ih]
    rw [hlen] at hn
    have := out x [] [] n rfl hn
    simpa using this

/-- **C18 (IIR).** Block invariance of the recursive filter (no algebra). -/
theorem C18_rii {T C : Type} (zero : T) (add sub : T → T → T) (mul div : T → C → T) (b : List C) (a0 : C) (a : List C)
    (hb : 0 < b.length) (ha : 0 < a.length) (blocs : List (List T)) :
    ∃ s0 s s' y, Rii.init zero b (a0 :: a) = some s0 ∧
      enchaine (Rii.step zero add sub mul div) s0 blocs = some (s, y) ∧
      Rii.step zero add sub mul div s0 blocs.flatten = some (s', y) := by
  obtain ⟨s0, e0, rX, rY⟩ := Rii.rep_init zero b a0 a hb ha
  have run : ∀ (blocs : List (List T)) s hx hy, Rii.RepX zero b (a0 :: a) s hx → Rii.RepY zero b (a0 :: a) s hy →
      ∃ s', enchaine (Rii.step zero add sub mul div) s blocs =
        some (s', Rii.pur zero add sub mul div b a0 a hx hy blocs.flatten) := by
    intro blocs
    induction blocs with
    | nil => intro s hx hy _ _; exact ⟨s, by simp [enchaine, Rii.pur]⟩
    | cons bl bs ih =>
      intro s hx hy h1 h2
      obtain ⟨s1, e1, r1, r1'⟩ := Rii.step_pur zero add sub mul div b a0 a s hx hy bl h1 h2
      obtain ⟨s2, e2⟩ := ih s1 _ _ r1 r1'
      refine ⟨s2, ?_⟩
      simp only [enchaine, e1, e2, List.flatten_cons, Rii.pur_append]
  obtain ⟨s, e⟩ := run blocs s0 [] [] rX rY
  obtain ⟨s', e', _, _⟩ := Rii.step_pur zero add sub mul div b a0 a s0 [] [] blocs.flatten rX rY
  exact ⟨s0, s, s', _, e0, e, e'⟩

/-- A purely non-recursive transfer function (constant denominator) makes the recursive filter compute `% 0`
(undefined behaviour) on the first sample: the property fails for `Ky = 0`. -/
theorem C20_denominateur_constant_refute {T C : Type} (zero : T) (add sub : T → T → T) (mul div : T → C → T) (b : List C)
    (a0 : C) (x : T) (xs : List T) :
    ∃ s0, Rii.init zero b [a0] = some s0 ∧ Rii.step zero add sub mul div s0 (x :: xs) = none := by
  -- the non-recursive pass produced at least one sample and left Ky = 0
  have keep : ∀ xs (s s' : Rii T C) (y : List T), boucle (Rii.echX zero add mul) s xs = some (s', y) →
      s'.Ky = s.Ky ∧ y.length = xs.length := by
    intro xs
    induction xs with
    | nil => intro s s' y h; simp [boucle] at h; rw [h.1, h.2]; simp
    | cons x xs ih =>
      intro s s' y h
      simp only [boucle] at h
      cases e : Rii.echX zero add mul s x with
      | none => simp [e] at h
      | some p =>
        obtain ⟨s1, y1⟩ := p
        rw [e] at h
        simp only at h
        cases e2 : boucle (Rii.echX zero add mul) s1 xs with
        | none => simp [e2] at h
        | some q =>
          obtain ⟨s2, y2⟩ := q
          simp only [e2, Option.some.injEq, Prod.mk.injEq] at h
          obtain ⟨h1, h2⟩ := ih s1 s2 y2 e2
          rw [← h.1, ← h.2, h1]
          refine ⟨?_, by simp [h2]⟩
          simp only [Rii.echX] at e
          repeat' split at e
          all_goals first | (simp at e; done) | (simp only [Option.some.injEq, Prod.mk.injEq] at e; rw [← e.1])
  refine ⟨⟨b, [a0], List.replicate b.length zero, [], 0, 0, b.length, 0⟩, by simp [Rii.init], ?_⟩
  unfold Rii.step
  split
  · rfl
  · rename_i s' v h
    obtain ⟨h1, h2⟩ := keep _ _ _ _ h
    cases v with
    | nil => simp at h2
    | cons v vs =>
      simp only [boucle]
      have : Rii.echY sub mul div s' v = none := by
        unfold Rii.echY
        simp only at h1
        simp only [h1]
        repeat' split
        all_goals first | rfl | simp_all
      rw [this]

example : (0 : Nat) < [1].length ∧ (0 : Nat) < [(-1/2 : ℚ)].length ∧ (2 : ℚ) ≠ 0 := by norm_num

/-! ## C23: moving average -/

theorem mg_rep {R : Type} [Field R] (K : Nat) (hK : 0 < K) (s : Mg R) (h : List R) (x : R)
    (hr : s.K = K ∧ s.fenetre.length = K ∧ s.index < K ∧ tourne s.fenetre s.index = derniers 0 K h ∧
      s.accu = (derniers 0 K h).sum) :
    ∃ s', Mg.ech (· + ·) (· - ·) (fun a => a * (1 / (K : R))) s x =
        some (s', (derniers 0 K (h ++ [x])).sum * (1 / (K : R))) ∧
      (s'.K = K ∧ s'.fenetre.length = K ∧ s'.index < K ∧ tourne s'.fenetre s'.index = derniers 0 K (h ++ [x]) ∧
      s'.accu = (derniers 0 K (h ++ [x])).sum) := by
  obtain ⟨h1, h2, h3, h4, h5⟩ := hr
  have e0 := tourne_getElem? s.fenetre s.index 0 (by omega) (by omega)
  rw [Nat.add_zero, Nat.mod_eq_of_lt (by omega), h4] at e0
  have hl := derniers_length (0 : R) K h
  have hsn := derniers_snoc (0 : R) K h x hK
  cases hd : derniers (0 : R) K h with
  | nil => rw [hd] at hl; simp at hl; omega
  | cons o l =>
    rw [hd] at e0 hsn h5
    simp only [List.getElem?_cons_zero] at e0
    rw [List.tail_cons] at hsn
    have hacc : s.accu + x - o = (derniers 0 K (h ++ [x])).sum := by
      rw [h5, hsn]; simp; ring
    refine ⟨{ s with accu := s.accu + x - o, fenetre := s.fenetre.set s.index x, index := (s.index + 1) % K }, ?_,
      h1, by simp [h2], Nat.mod_lt _ hK, ?_, hacc⟩
    · unfold Mg.ech
      rw [← e0]
      simp only [h1]
      rw [if_neg (by omega), hacc]
    · show tourne (s.fenetre.set s.index x) ((s.index + 1) % K) = _
      conv_lhs => rw [← h2]
      rw [tourne_set _ _ _ (by omega), h4, hd, hsn, List.tail_cons]

private theorem sum_derniers {R : Type} [Field R] (K : Nat) (x : List R) (n : Nat) (hn : n < x.length) :
    (derniers 0 K (x.take (n + 1))).sum = ∑ k ∈ Finset.range K, passe x n k := by
  have hs : ∀ l : List R, l.sum = ∑ i ∈ Finset.range l.length, l.getD i 0 := by
    intro l
    induction l with
    | nil => simp
    | cons a l ih =>
      rw [List.sum_cons, ih, List.length_cons, Finset.sum_range_succ']
      simp only [List.getD_cons_succ, List.getD_cons_zero]
      ring
  rw [hs, derniers_length, ← Finset.sum_range_reflect]
  refine Finset.sum_congr rfl fun k hk => ?_
  exact derniers_passe _ _ _ _ hn (Finset.mem_range.1 hk)

/-- **C23.** For every window length K ≥ 1 and every cutting of the stream, output `n` of the moving average is the mean of
the last K inputs (zeros before the start), in exact arithmetic. -/
theorem C23_moyenne {R : Type} [Field R] (K : Nat) (hK : 0 < K) (blocs : List (List R)) :
    ∃ s y, enchaine (Mg.step (· + ·) (· - ·) (fun a => a * (1 / (K : R)))) (Mg.init 0 K) blocs = some (s, y) ∧
      y.length = blocs.flatten.length ∧ ∀ n, n < y.length → y[n]? = some (moyenne K blocs.flatten n) := by
  let Rep : Mg R → List R → Prop := fun s h =>
    s.K = K ∧ s.fenetre.length = K ∧ s.index < K ∧ tourne s.fenetre s.index = derniers 0 K h ∧ s.accu = (derniers 0 K h).sum
  have hinit : Rep (Mg.init 0 K) [] :=
    ⟨rfl, by simp [Mg.init], hK, by simp [Mg.init, tourne, derniers], by simp [Mg.init, derniers]⟩
  have hstep : ∀ (s : Mg R) h x, Rep s h → ∃ s', Mg.ech (· + ·) (· - ·) (fun a => a * (1 / (K : R))) s x =
      some (s', (fun l => (derniers 0 K l).sum * (1 / (K : R))) (h ++ [x])) ∧ Rep s' (h ++ [x]) :=
    fun s h x hr => mg_rep K hK s h x hr
  have hrun : ∀ (blocs : List (List R)) s h, Rep s h →
      ∃ s' ys, enchaine (Mg.step (· + ·) (· - ·) (fun a => a * (1 / (K : R)))) s blocs = some (s', ys) ∧
        boucle (Mg.ech (· + ·) (· - ·) (fun a => a * (1 / (K : R)))) s blocs.flatten = some (s', ys) := by
    intro blocs
    induction blocs with
    | nil => intro s h _; exact ⟨s, [], rfl, rfl⟩
    | cons b bs ih =>
      intro s h hr
      obtain ⟨s1, y1, e1, r1, _, _⟩ := boucle_hist _ Rep (fun l => (derniers 0 K l).sum * (1 / (K : R))) hstep b s h hr
      obtain ⟨s2, y2, e2, e2'⟩ := ih s1 _ r1
      refine ⟨s2, y1 ++ y2, ?_, ?_⟩
      · simp only [enchaine]
        have : Mg.step (· + ·) (· - ·) (fun a => a * (1 / (K : R))) s b = some (s1, y1) := by
          unfold Mg.step
          rw [if_neg (by rw [hr.1]; omega), e1]
        rw [this]
        simp only [e2]
      · rw [List.flatten_cons, boucle_append, e1]
        simp only [e2']
  obtain ⟨s', ys, e1, e2⟩ := hrun blocs _ [] hinit
  obtain ⟨s2, ys2, e3, _, hl, ho⟩ := boucle_hist _ Rep (fun l => (derniers 0 K l).sum * (1 / (K : R))) hstep blocs.flatten _ [] hinit
  rw [e3] at e2
  simp only [Option.some.injEq, Prod.mk.injEq] at e2
  obtain ⟨rfl, rfl⟩ := e2
  refine ⟨s2, ys2, e1, hl, ?_⟩
  intro n hn
  rw [ho n (by omega)]
  simp only [List.nil_append]
  rw [sum_derniers K _ n (by omega)]
  unfold moyenne
  rw [mul_one_div]

example : (0 : Nat) < 2 ∧ moyenne 2 [(1 : ℚ), 3, 5] 2 = 4 := by
  refine ⟨by decide, ?_⟩
  simp [moyenne, passe, Finset.sum_range_succ]; norm_num

end Verif.Filtre
