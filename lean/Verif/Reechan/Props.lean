import Verif.Reechan.Lemmas
import Verif.Reechan.Spec
import Mathlib.Algebra.Order.Ring.Rat
import Mathlib.Tactic.NormNum

/-! # Property C24: polyphase decimator, half-band decimator, polyphase interpolator -/

namespace Verif.Reechan
open Verif.Filtre

/-! ## Decimator -/

/-- Output of the decimator for an input history. -/
def outD {T C : Type} (zero : T) (add : T → T → T) (mul : T → C → T) (c : List C) (h : List T) : T :=
  mac add mul zero (derniers zero c.length h) c

/-- State of the decimator after input history `h`. -/
def RifDecim.Rep {T C : Type} (zero : T) (c : List C) (R : Nat) (s : RifDecim T C) (h : List T) : Prop :=
  s.K = c.length ∧ s.coefs = c ∧ s.R = R ∧ s.fen.length = c.length ∧ s.index < c.length ∧
  tourne s.fen s.index = derniers zero c.length h ∧ s.cnt = h.length % R

theorem accu_mac {T C : Type} (add : T → T → T) (mul : T → C → T) (w : List T) (c : List C) (s zero : T) (k : Nat → C)
    (h : w.length = c.length) (hk : ∀ t, t < c.length → c[t]? = some (k t)) :
    accu add mul (fun t => w.getD t zero) k c.length s = mac add mul s w c := by
  induction w generalizing c s k with
  | nil => cases c with
    | nil => rfl
    | cons => simp at h
  | cons a w ih => cases c with
    | nil => simp at h
    | cons b c =>
      have h0 := hk 0 (by simp)
      simp only [List.getElem?_cons_zero, Option.some.injEq] at h0
      rw [List.length_cons, Nat.add_comm, accu_plus]
      have e : accu add mul (fun t => (a :: w).getD t zero) k 1 s = add s (mul a b) := by
        simp [accu, h0]
      rw [e]
      simp only [mac]
      rw [← ih c _ (fun t => k (1 + t)) (by simpa using h)
        (fun t ht => by rw [← hk (1 + t) (by simp; omega), Nat.add_comm, List.getElem?_cons_succ])]
      apply accu_congr
      · intro t _; rw [Nat.add_comm 1 t, List.getD_cons_succ]
      · intro t _; rfl

theorem cnt_suivant (n R : Nat) (hR : 0 < R) :
    (n % R + 1 < R → (n + 1) % R = n % R + 1 ∧ (n + 1) % R ≠ 0) ∧ (¬ n % R + 1 < R → (n + 1) % R = 0) := by
  have hlt := Nat.mod_lt n hR
  constructor
  · intro h
    rw [Nat.add_mod, Nat.mod_eq_of_lt (a := 1) (by omega), Nat.mod_eq_of_lt h]
    omega
  · intro h
    have : n % R + 1 = R := by omega
    rw [← Nat.mod_add_mod, this, Nat.mod_self]

theorem RifDecim.rep_ech {T C : Type} (zero : T) (add : T → T → T) (mul : T → C → T) (c : List C) (R : Nat) (hR : 0 < R)
    (s : RifDecim T C) (h : List T) (x : T) (hr : RifDecim.Rep zero c R s h) :
    ∃ s', RifDecim.ech zero add mul s x =
        some (s', if (h ++ [x]).length % R = 0 then [outD zero add mul c (h ++ [x])] else []) ∧
      RifDecim.Rep zero c R s' (h ++ [x]) := by
  obtain ⟨hK, hc, hRR, hf, hi, ht, hcnt⟩ := hr
  have hc0 : 0 < c.length := by omega
  have htour : tourne (s.fen.set s.index x) ((s.index + 1) % c.length) = derniers zero c.length (h ++ [x]) := by
    rw [← hf, tourne_set _ _ _ (by omega), ht, ← derniers_snoc _ _ _ _ hc0, hf]
  have hlt : (s.index + 1) % c.length < c.length := Nat.mod_lt _ hc0
  have hcs := cnt_suivant h.length R hR
  unfold RifDecim.ech
  rw [if_neg (by omega), if_pos (by omega), hK, hc, hRR, hcnt]
  simp only [List.length_append, List.length_singleton]
  by_cases hd : h.length % R + 1 < R
  · refine ⟨⟨s.fen.set s.index x, c, (s.index + 1) % c.length, c.length, h.length % R + 1, R⟩, ?_,
      rfl, rfl, rfl, by simp [hf], hlt, htour, ?_⟩
    · rw [if_pos hd, if_neg (hcs.1 hd).2]
    · show h.length % R + 1 = (h ++ [x]).length % R
      rw [List.length_append, List.length_singleton, (hcs.1 hd).1]
  · have hk : ∀ t, t < (s.fen.set s.index x).length → c[0 + t * 1]? = some (c.getD t (c[0])) := by
      intro t hlt'
      rw [Nat.zero_add, Nat.mul_one]
      exact lit_getD _ _ _ (by simpa [hf] using hlt')
    obtain ⟨s1, ci, r, e1, e2, e3⟩ := macPas_deux zero add mul 1 0 (s.fen.set s.index x) c (fun t => c.getD t c[0])
      ((s.index + 1) % c.length) (by simp only [List.length_set, hf]; omega) hk
    simp only [List.length_set, hf] at e1 e2 e3
    refine ⟨⟨s.fen.set s.index x, c, (s.index + 1) % c.length, c.length, 0, R⟩, ?_,
      rfl, rfl, rfl, by simp [hf], hlt, htour, ?_⟩
    · rw [if_neg hd, if_pos (hcs.2 hd), e1]
      simp only [e2, e3, htour]
      unfold outD
      rw [accu_mac _ _ _ _ _ _ _ (by rw [derniers_length]) (fun t ht => lit_getD _ _ _ ht)]
    · show 0 = (h ++ [x]).length % R
      rw [List.length_append, List.length_singleton, hcs.2 hd]

theorem RifDecim.rep_step {T C : Type} (zero : T) (add : T → T → T) (mul : T → C → T) (c : List C) (R : Nat) (hR : 0 < R)
    (s : RifDecim T C) (h x : List T) (hr : RifDecim.Rep zero c R s h) :
    ∃ s', RifDecim.step zero add mul s x =
        some (s', sorties (fun h => if h.length % R = 0 then [outD zero add mul c h] else []) h x) ∧
      RifDecim.Rep zero c R s' (h ++ x) := by
  obtain ⟨s', e, r⟩ := boucleL_hist _ (RifDecim.Rep zero c R)
    (fun h => if h.length % R = 0 then [outD zero add mul c h] else [])
    (fun s h x hr => RifDecim.rep_ech zero add mul c R hR s h x hr) x s h hr
  refine ⟨s', ?_, r⟩
  obtain ⟨hK, hc, hRR, hf, hi, ht, hcnt⟩ := hr
  unfold RifDecim.step
  rw [if_neg (by omega), e]
  simp only
  rw [if_pos]
  rw [sorties_un_sur_length R hR, hRR, hcnt]

theorem RifDecim.rep_init {T C : Type} (zero : T) (c : List C) (R : Nat) (hc : 0 < c.length) :
    RifDecim.Rep zero c R (RifDecim.init zero c R) [] := by
  refine ⟨rfl, rfl, rfl, by simp [RifDecim.init], by simpa [RifDecim.init] using hc, ?_, by simp [RifDecim.init]⟩
  simp [RifDecim.init, tourne, derniers]

theorem decim_valeur {T C : Type} (zero : T) (add : T → T → T) (mul : T → C → T) (c : List C) (hc : 0 < c.length)
    (R : Nat) (hR : 0 < R) (blocs : List (List T)) :
    ∃ s, enchaine (RifDecim.step zero add mul) (RifDecim.init zero c R) blocs =
      some (s, (List.range (blocs.flatten.length / R)).map fun m => outD zero add mul c (blocs.flatten.take ((m + 1) * R))) := by
  obtain ⟨s, e, _⟩ := enchaine_hist _ (RifDecim.Rep zero c R)
    (fun h => if h.length % R = 0 then [outD zero add mul c h] else [])
    (fun s h x hr => RifDecim.rep_step zero add mul c R hR s h x hr) blocs _ [] (RifDecim.rep_init zero c R hc)
  rw [sorties_un_sur R hR] at e
  exact ⟨s, e⟩

/-- **C24 (decimator, cutting).** The output does not depend on how the stream is cut into blocks (no algebra: also for floats). -/
theorem C24_decim_blocs {T C : Type} (zero : T) (add : T → T → T) (mul : T → C → T) (c : List C) (hc : 0 < c.length)
    (R : Nat) (hR : 0 < R) (blocs : List (List T)) :
    ∃ s s' y, enchaine (RifDecim.step zero add mul) (RifDecim.init zero c R) blocs = some (s, y) ∧
      RifDecim.step zero add mul (RifDecim.init zero c R) blocs.flatten = some (s', y) := by
  obtain ⟨s, e⟩ := decim_valeur zero add mul c hc R hR blocs
  obtain ⟨s', e'⟩ := decim_valeur zero add mul c hc R hR [blocs.flatten]
  simp only [List.flatten_cons, List.flatten_nil, List.append_nil, enchaine] at e'
  refine ⟨s, ?_⟩
  cases h : RifDecim.step zero add mul (RifDecim.init zero c R) blocs.flatten with
  | none => rw [h] at e'; simp at e'
  | some p =>
    rw [h] at e'
    simp only [Option.some.injEq, Prod.mk.injEq] at e'
    exact ⟨p.1, _, e, by rw [← e'.2]⟩

/-- **C24 (decimator), partial:** for a symmetric filter (linear phase), whatever the cutting, the polyphase decimator delivers exactly the samples of
index R-1, 2R-1, … of the output of the full-rate FIR filter with the same coefficients; the equality is exact even for floats
(no algebraic law is used).  Missing: non-symmetric filters, for which it is false (`C24_decim_refute`). -/
theorem C24_decim_partial {T C : Type} (zero : T) (add : T → T → T) (mul : T → C → T) (c : List C) (hc : 0 < c.length)
    (hsym : c.reverse = c) (R : Nat) (hR : 0 < R) (blocs : List (List T)) :
    ∃ s s' y z, enchaine (RifDecim.step zero add mul) (RifDecim.init zero c R) blocs = some (s, y) ∧
      enchaine (Rif.step zero add mul) (Rif.init zero c) blocs = some (s', z) ∧
      z.length = blocs.flatten.length ∧ y.length = blocs.flatten.length / R ∧
      ∀ m, m < y.length → y[m]? = z[(m + 1) * R - 1]? := by
  obtain ⟨s, e⟩ := decim_valeur zero add mul c hc R hR blocs
  obtain ⟨s', z, ez, _, hl, ho⟩ := boucle_hist _ (Rif.Rep zero c)
    (fun h => mac add mul zero (derniers zero c.length h) c.reverse)
    (fun s h x hr => Rif.rep_ech zero add mul c s h x hr) blocs.flatten _ [] (Rif.rep_init zero c hc)
  refine ⟨s, s', _, z, e, ?_, hl, by simp, ?_⟩
  · rw [(C18_rif zero add mul c hc blocs).1]
    unfold Rif.step
    rw [if_neg (by simp only [Rif.init]; omega)]
    exact ez
  · intro m hm
    simp only [List.length_map, List.length_range] at hm
    have h1 : (m + 1) * R ≤ blocs.flatten.length := (Nat.le_div_iff_mul_le hR).1 hm
    have h2 : 0 < (m + 1) * R := Nat.mul_pos (by omega) hR
    rw [ho _ (by omega), List.getElem?_map, List.getElem?_range hm, hsym]
    simp [outD, Nat.sub_add_cancel h2]

example : ([1, 2, 1] : List Int).reverse = [1, 2, 1] ∧ 0 < ([1, 2, 1] : List Int).length ∧
    (enchaine (RifDecim.step (0 : Int) (· + ·) (· * ·)) (RifDecim.init 0 [1, 2, 1] 2) [[1], [2, 3], [4]]).map Prod.snd
      = some [4, 12] := by decide

/-- **C24 (decimator, any filter).** For every filter, the output is full-rate filtering by the *time-reversed* coefficients followed
by keeping one sample in R. -/
theorem C24_decim_miroir {A : Type} [CommSemiring A] (c : List A) (hc : 0 < c.length) (R : Nat) (hR : 0 < R)
    (blocs : List (List A)) :
    ∃ s, enchaine (RifDecim.step (0 : A) (· + ·) (· * ·)) (RifDecim.init 0 c R) blocs =
      some (s, filtreEtDecime R c.reverse blocs.flatten) := by
  obtain ⟨s, e⟩ := decim_valeur (0 : A) (· + ·) (· * ·) c hc R hR blocs
  refine ⟨s, ?_⟩
  rw [e, filtreEtDecime]
  congr 2
  apply List.map_congr_left
  intro m hm
  have h1 : (m + 1) * R ≤ blocs.flatten.length := (Nat.le_div_iff_mul_le hR).1 (List.mem_range.1 hm)
  have h2 : 0 < (m + 1) * R := Nat.mul_pos (by omega) hR
  have := window_sum c.reverse blocs.flatten ((m + 1) * R - 1) (by omega)
  rw [List.reverse_reverse, List.length_reverse, Nat.sub_add_cancel h2] at this
  rw [← this, outD]

/-- **C24 refuted for a non-symmetric filter:** with coefficients (1, 0) — the identity — and R = 1 the "decimator" delays by one sample. -/
theorem C24_decim_refute :
    (enchaine (RifDecim.step (0 : Int) (· + ·) (· * ·)) (RifDecim.init 0 [1, 0] 1) [[5, 7]]).map Prod.snd = some [0, 5] ∧
    (enchaine (Rif.step (0 : Int) (· + ·) (· * ·)) (Rif.init 0 [1, 0]) [[5, 7]]).map Prod.snd = some [5, 7] := by decide

/-- A decimator without coefficients is rejected. -/
theorem C24_decim_sans_coefs {T C : Type} (zero : T) (add : T → T → T) (mul : T → C → T) (R : Nat) (x : List T) :
    RifDecim.step zero add mul (RifDecim.init zero ([] : List C) R) x = none := by simp [RifDecim.step, RifDecim.init]

/-! ## Half-band decimator -/

/-- Output of the half-band decimator for an input history. -/
def outH {T C : Type} (zero : T) (add : T → T → T) (mul : T → C → T) (demi : T → T) (c : List C) (k : Nat → C) (h : List T) : T :=
  add (accu add mul (fun t => (derniers zero c.length h).getD (2 * t) zero) k ((c.length + 1) / 2) zero)
    (demi ((derniers zero c.length h).getD (c.length / 2) zero))

/-- State of the half-band decimator after input history `h`. -/
def DemiBande.Rep {T C : Type} (zero : T) (c : List C) (s : DemiBande T C) (h : List T) : Prop :=
  s.K = c.length ∧ s.coefs = c ∧ s.fen.length = c.length ∧ s.index < c.length ∧
  tourne s.fen s.index = derniers zero c.length h ∧ s.odd = h.length % 2

theorem DemiBande.rep_ech {T C : Type} (zero : T) (add : T → T → T) (mul : T → C → T) (demi : T → T) (c : List C) (k : Nat → C)
    (hk : ∀ t, 2 * t < c.length → c[t * 2]? = some (k t))
    (s : DemiBande T C) (h : List T) (x : T) (hr : DemiBande.Rep zero c s h) :
    ∃ s', DemiBande.ech zero add mul demi s x =
        some (s', if (h ++ [x]).length % 2 = 0 then [outH zero add mul demi c k (h ++ [x])] else []) ∧
      DemiBande.Rep zero c s' (h ++ [x]) := by
  obtain ⟨hK, hc, hf, hi, ht, hcnt⟩ := hr
  have hc0 : 0 < c.length := by omega
  have htour : tourne (s.fen.set s.index x) ((s.index + 1) % c.length) = derniers zero c.length (h ++ [x]) := by
    rw [← hf, tourne_set _ _ _ (by omega), ht, ← derniers_snoc _ _ _ _ hc0, hf]
  have hlt : (s.index + 1) % c.length < c.length := Nat.mod_lt _ hc0
  unfold DemiBande.ech
  rw [if_neg (by omega), if_pos (by omega), hK, hc, hcnt]
  simp only [List.length_append, List.length_singleton]
  by_cases hd : h.length % 2 < 1
  · refine ⟨⟨s.fen.set s.index x, c, (s.index + 1) % c.length, c.length, h.length % 2 + 1⟩, ?_,
      rfl, rfl, by simp [hf], hlt, htour, ?_⟩
    · rw [if_pos hd, if_neg (by omega)]
    · show h.length % 2 + 1 = (h ++ [x]).length % 2
      rw [List.length_append, List.length_singleton]; omega
  · obtain ⟨s1, ci, r, e1, e2, e3⟩ := macPas_deux2 zero add mul (s.fen.set s.index x) c k
      ((s.index + 1) % c.length) (by simp only [List.length_set, hf]; omega)
      (fun t ht => hk t (by simpa [hf] using ht))
    have e4 := tourne_lit zero (s.fen.set s.index x) ((s.index + 1) % c.length) (c.length / 2)
      (by simp only [List.length_set, hf]; omega) (by simp only [List.length_set, hf]; omega)
    simp only [List.length_set, hf] at e1 e2 e3 e4
    refine ⟨⟨s.fen.set s.index x, c, (s.index + 1) % c.length, c.length, 0⟩, ?_,
      rfl, rfl, by simp [hf], hlt, htour, ?_⟩
    · rw [if_neg hd, if_pos (by omega), e1]
      simp only [e2, e3, e4, htour, outH]
    · show 0 = (h ++ [x]).length % 2
      rw [List.length_append, List.length_singleton]; omega

theorem DemiBande.rep_step {T C : Type} (zero : T) (add : T → T → T) (mul : T → C → T) (demi : T → T) (c : List C) (k : Nat → C)
    (hk : ∀ t, 2 * t < c.length → c[t * 2]? = some (k t)) (s : DemiBande T C) (h x : List T) (hr : DemiBande.Rep zero c s h) :
    ∃ s', DemiBande.step zero add mul demi s x =
        some (s', sorties (fun h => if h.length % 2 = 0 then [outH zero add mul demi c k h] else []) h x) ∧
      DemiBande.Rep zero c s' (h ++ x) := by
  obtain ⟨s', e, r⟩ := boucleL_hist _ (DemiBande.Rep zero c)
    (fun h => if h.length % 2 = 0 then [outH zero add mul demi c k h] else [])
    (fun s h x hr => DemiBande.rep_ech zero add mul demi c k hk s h x hr) x s h hr
  refine ⟨s', ?_, r⟩
  obtain ⟨hK, hc, hf, hi, ht, hcnt⟩ := hr
  unfold DemiBande.step
  rw [if_neg (by omega), e]
  simp only
  rw [if_pos]
  rw [sorties_un_sur_length 2 (by omega), hcnt]

theorem demi_valeur {T C : Type} (zero : T) (add : T → T → T) (mul : T → C → T) (demi : T → T) (c : List C) (hc : 0 < c.length)
    (k : Nat → C) (hk : ∀ t, 2 * t < c.length → c[t * 2]? = some (k t)) (blocs : List (List T)) :
    ∃ s, enchaine (DemiBande.step zero add mul demi) (DemiBande.init zero c) blocs =
      some (s, (List.range (blocs.flatten.length / 2)).map fun m => outH zero add mul demi c k (blocs.flatten.take ((m + 1) * 2))) := by
  obtain ⟨s, e, _⟩ := enchaine_hist _ (DemiBande.Rep zero c)
    (fun h => if h.length % 2 = 0 then [outH zero add mul demi c k h] else [])
    (fun s h x hr => DemiBande.rep_step zero add mul demi c k hk s h x hr) blocs (DemiBande.init zero c) []
    ⟨rfl, rfl, by simp [DemiBande.init], by simpa [DemiBande.init] using hc, by simp [DemiBande.init, tourne, derniers],
      by simp [DemiBande.init]⟩
  rw [sorties_un_sur 2 (by omega)] at e
  exact ⟨s, e⟩

theorem somme_paires {A : Type} [CommSemiring A] (f : Nat → A) (n : Nat) :
    ∑ j ∈ Finset.range n, f j =
      ∑ t ∈ Finset.range ((n + 1) / 2), f (2 * t) + ∑ t ∈ Finset.range (n / 2), f (2 * t + 1) := by
  induction n with
  | zero => simp
  | succ n ih =>
    rw [Finset.sum_range_succ, ih]
    rcases Nat.even_or_odd' n with ⟨m, hm | hm⟩
    · rw [show (n + 1 + 1) / 2 = m + 1 by omega, show (n + 1) / 2 = m by omega, show n / 2 = m by omega, Finset.sum_range_succ, hm]
      abel
    · rw [show (n + 1 + 1) / 2 = m + 1 by omega, show (n + 1) / 2 = m + 1 by omega, show n / 2 = m by omega,
        Finset.sum_range_succ (fun t => f (2 * t + 1)), hm]
      abel

/-- **C24 (half-band), partial:** for a symmetric half-band filter with `4 q + 3` coefficients (coefficients of odd index zero, except the central one,
equal to 1/2) the half-band decimator equals full-rate filtering followed by keeping one sample in 2, whatever the cutting.
Missing: the other lengths, for which it is false (`C24_demi_bande_refute`). -/
theorem C24_demi_bande_partial {A : Type} [Field A] (c : List A) (hl : c.length % 4 = 3) (hsym : c.reverse = c)
    (hc : c.getD (c.length / 2) 0 = 1 / 2)
    (hz : ∀ j, j < c.length → j % 2 = 1 → j ≠ c.length / 2 → c.getD j 0 = 0) (blocs : List (List A)) :
    ∃ s, enchaine (DemiBande.step (0 : A) (· + ·) (· * ·) (fun v => (1 / 2) * v)) (DemiBande.init 0 c) blocs =
      some (s, filtreEtDecime 2 c blocs.flatten) := by
  obtain ⟨s, e⟩ := demi_valeur (0 : A) (· + ·) (· * ·) (fun v => (1 / 2) * v) c (by omega) (fun t => c.getD (2 * t) 0)
    (fun t ht => by rw [Nat.mul_comm]; exact lit_getD _ _ _ ht) blocs
  refine ⟨s, ?_⟩
  rw [e, filtreEtDecime]
  congr 2
  apply List.map_congr_left
  intro m hm
  have h1 : (m + 1) * 2 ≤ blocs.flatten.length := (Nat.le_div_iff_mul_le (by omega)).1 (List.mem_range.1 hm)
  have := window_sum c blocs.flatten ((m + 1) * 2 - 1) (by omega)
  rw [hsym, Nat.sub_add_cancel (by omega)] at this
  rw [← this, mac_add_sum _ _ _ (by rw [derniers_length]), zero_add, somme_paires, outH]
  simp only [accu_somme, zero_add]
  congr 1
  rw [Finset.sum_eq_single (c.length / 4)]
  · have : 2 * (c.length / 4) + 1 = c.length / 2 := by omega
    rw [this, hc, mul_comm]
  · intro t ht hne
    have ht := Finset.mem_range.1 ht
    rw [hz (2 * t + 1) (by omega) (by omega) (by omega), mul_zero]
  · intro hn
    exact absurd (Finset.mem_range.2 (by omega)) hn

example : ([1/4, 1/2, 1/4] : List ℚ).length % 4 = 3 ∧ ([1/4, 1/2, 1/4] : List ℚ).reverse = [1/4, 1/2, 1/4] ∧
    (enchaine (DemiBande.step (0 : ℚ) (· + ·) (· * ·) (fun v => (1 / 2) * v)) (DemiBande.init 0 [1/4, 1/2, 1/4]) [[1], [2, 3], [4]]).map Prod.snd
      = some [1, 3] := by
  refine ⟨rfl, rfl, ?_⟩
  decide +kernel

/-- **C24 refuted for half-band filters with 4 q + 1 coefficients:** (0, 1/4, 1/2, 1/4, 0) gives 0 instead of 1/4. -/
theorem C24_demi_bande_refute :
    (enchaine (DemiBande.step (0 : ℚ) (· + ·) (· * ·) (fun v => (1 / 2) * v)) (DemiBande.init 0 [0, 1/4, 1/2, 1/4, 0])
      [[1, 2, 3, 4]]).map Prod.snd = some [0, 2] ∧
    filtreEtDecime 2 [0, 1/4, 1/2, 1/4, 0] [1, 2, 3, 4] = ([1/4, 2] : List ℚ) := by
  constructor
  · decide +kernel
  · decide +kernel

end Verif.Reechan
