import Verif.Lfsr.Period
import Verif.Lfsr.Props
import Mathlib.Data.Nat.Prime.Defs
import Mathlib.Algebra.BigOperators.Group.List.Basic
import Mathlib.Data.List.Prime
import Mathlib.Order.Interval.Finset.Nat
import Mathlib.Data.Nat.Count
/-! # Property C10 (maximal-length sequences) and C42 (default generator) -/
namespace Verif.Lfsr

private theorem mls_period (n : Nat) (h1 : 1 ≤ n) (h16 : n ≤ 16) :
    Function.minimalPeriod (regSuivant n (polT n)) 1 = 2 ^ n - 1 := by
  obtain ⟨_, _, _, hprod, hper, hmin⟩ := table_ok n h16 h1
  have hl : Lin n (regSuivant n (polT n)) := regSuivant_lin h1 (by omega)
  have one_lt : 1 < 2 ^ n := Nat.one_lt_two_pow (by omega)
  have pw : ∀ m, m < 2 ^ 17 → powAppl 17 (matrice n (regSuivant n (polT n))) m 1 = (regSuivant n (polT n))^[m] 1 :=
    fun m hm => powAppl_eq 17 _ hl m 1 hm one_lt
  have hlt : 2 ^ n ≤ 2 ^ 16 := Nat.pow_le_pow_right (by omega) h16
  have hdvd : Function.minimalPeriod (regSuivant n (polT n)) 1 ∣ 2 ^ n - 1 := by
    apply Function.IsPeriodicPt.minimalPeriod_dvd
    unfold Function.IsPeriodicPt Function.IsFixedPt
    rw [← pw _ (by omega)]; exact hper
  by_contra hne
  obtain ⟨c, hc⟩ := hdvd
  have hc1 : c ≠ 1 := by rintro rfl; apply hne; omega
  obtain ⟨q, hq, hqc⟩ := Nat.exists_prime_and_dvd hc1
  have hqN : q ∣ (facteurs[n]?.getD []).prod := by
    rw [hprod, hc]; exact Dvd.dvd.mul_left hqc _
  have hlen : n < facteurs.length := by simp [facteurs]; omega
  have hmem : q ∈ facteurs[n]?.getD [] := by
    apply mem_list_primes_of_dvd_prod (Nat.prime_iff.1 hq) _ hqN
    intro r hr
    rw [List.getElem?_eq_getElem hlen] at hr
    exact Nat.prime_iff.1 (facteurs_premiers _ (List.getElem_mem hlen) r hr)
  apply hmin q hmem
  rw [pw _ (lt_of_le_of_lt (Nat.div_le_self _ _) (by omega))]
  obtain ⟨d, rfl⟩ := hqc
  have : (2 ^ n - 1) / q = Function.minimalPeriod (regSuivant n (polT n)) 1 * d := by
    rw [hc, show Function.minimalPeriod (regSuivant n (polT n)) 1 * (q * d)
      = (Function.minimalPeriod (regSuivant n (polT n)) 1 * d) * q by ac_rfl]
    exact Nat.mul_div_cancel _ hq.pos
  rw [this]
  exact (Function.isPeriodicPt_minimalPeriod _ _).mul_const d

private theorem orbit_ne_zero (n : Nat) (h1 : 1 ≤ n) (h16 : n ≤ 16) (k x : Nat) (hx : x < 2 ^ n) (h0 : x ≠ 0) :
    (regSuivant n (polT n))^[k] x ≠ 0 := by
  obtain ⟨_, hb, _⟩ := table_ok n h16 h1
  have hl : Lin n (regSuivant n (polT n)) := regSuivant_lin h1 (by omega)
  induction k with
  | zero => exact h0
  | succ k ih =>
    rw [Function.iterate_succ_apply']
    intro h
    apply ih
    refine regSuivant_inj h1 hb ((hl.iterate k).lt x hx) (Nat.two_pow_pos _) ?_
    rw [h, hl.zero]

private theorem orbit_all (n : Nat) (h1 : 1 ≤ n) (h16 : n ≤ 16) (y : Nat) (hy : y < 2 ^ n) (h0 : y ≠ 0) :
    ∃ k < 2 ^ n - 1, (regSuivant n (polT n))^[k] 1 = y := by
  have hl : Lin n (regSuivant n (polT n)) := regSuivant_lin h1 (by omega)
  have one_lt : 1 < 2 ^ n := Nat.one_lt_two_pow (by omega)
  have hp := mls_period n h1 h16
  have himg : Finset.image (fun k => (regSuivant n (polT n))^[k] 1) (Finset.range (2 ^ n - 1)) = Finset.Ico 1 (2 ^ n) := by
    apply Finset.eq_of_subset_of_card_le
    · intro z hz
      simp only [Finset.mem_image, Finset.mem_range] at hz
      obtain ⟨k, _, rfl⟩ := hz
      rw [Finset.mem_Ico]
      exact ⟨Nat.one_le_iff_ne_zero.2 (orbit_ne_zero n h1 h16 k 1 one_lt (by omega)), (hl.iterate k).lt 1 one_lt⟩
    · rw [Finset.card_image_of_injOn]
      · simp
      · intro a ha b hb hab
        simp only [Finset.coe_range, Set.mem_Iio] at ha hb
        have := (Function.iterate_eq_iterate_iff_of_lt_minimalPeriod (f := regSuivant n (polT n)) (x := 1)
          (by rw [hp]; exact ha) (by rw [hp]; exact hb)).1 hab
        exact this
  have : y ∈ Finset.Ico 1 (2 ^ n) := Finset.mem_Ico.2 ⟨by omega, hy⟩
  rw [← himg] at this
  simpa using this

/-- **C10 (states).** For every supported register length, from every non-zero register value `x`, the register takes
each non-zero value `y` exactly once among the first `2^n - 1` steps, then is back to `x`. -/
theorem C10_periode_maximale (n : Nat) (h1 : 1 ≤ n) (h16 : n ≤ 16) :
    ∃ p, polynomePrimitifBinaire n = some p ∧
      ∀ x, 0 < x → x < 2 ^ n →
        (regSuivant n p)^[2 ^ n - 1] x = x ∧
        ∀ y, 0 < y → y < 2 ^ n → ∃! k, k < 2 ^ n - 1 ∧ (regSuivant n p)^[k] x = y := by
  obtain ⟨ht, _⟩ := table_ok n h16 h1
  have hp := mls_period n h1 h16
  refine ⟨polT n, ht, ?_⟩
  intro x hx0 hx
  obtain ⟨j, hj, rfl⟩ := orbit_all n h1 h16 x hx (by omega)
  have one_lt : 1 < 2 ^ n := Nat.one_lt_two_pow (by omega)
  have per1 : (regSuivant n (polT n))^[2 ^ n - 1] 1 = 1 := by
    have := Function.isPeriodicPt_minimalPeriod (regSuivant n (polT n)) 1
    rwa [hp] at this
  have hmp : Function.minimalPeriod (regSuivant n (polT n)) ((regSuivant n (polT n))^[j] 1) = 2 ^ n - 1 := by
    rw [Function.minimalPeriod_apply_iterate, hp]
    exact Function.mk_mem_periodicPts (n := 2 ^ n - 1) (by omega) per1
  refine ⟨?_, ?_⟩
  · have := Function.isPeriodicPt_minimalPeriod (regSuivant n (polT n)) ((regSuivant n (polT n))^[j] 1)
    rwa [hmp] at this
  · intro y hy0 hy
    obtain ⟨i, hi, rfl⟩ := orbit_all n h1 h16 y hy (by omega)
    have ex : ∃ k < 2 ^ n - 1, (regSuivant n (polT n))^[k] ((regSuivant n (polT n))^[j] 1)
        = (regSuivant n (polT n))^[i] 1 := by
      by_cases hij : j ≤ i
      · refine ⟨i - j, by omega, ?_⟩
        rw [← Function.iterate_add_apply]
        congr 1; omega
      · refine ⟨i + (2 ^ n - 1) - j, by omega, ?_⟩
        rw [← Function.iterate_add_apply, show i + (2 ^ n - 1) - j + j = i + (2 ^ n - 1) by omega,
          Function.iterate_add_apply, per1]
    obtain ⟨k, hk, he⟩ := ex
    refine ⟨k, ⟨hk, he⟩, ?_⟩
    rintro k' ⟨hk', he'⟩
    exact (Function.iterate_eq_iterate_iff_of_lt_minimalPeriod (by rw [hmp]; exact hk')
      (by rw [hmp]; exact hk)).1 (he'.trans he.symm)

example : (1 : Nat) ≤ 16 ∧ (16 : Nat) ≤ 16 ∧ 0 < 0xfa17 ∧ 0xfa17 < 2 ^ 16 := by decide

/-- registers of the generator after `k` steps -/
private theorem gen_bits (c : Config) (hs : c.sortie = .poidsFaible) (N reg : Nat) :
    (Gen.step ⟨c, reg⟩ N).1 = (List.range N).map (fun k => ((regSuivant c.reglen c.pol)^[k] reg).testBit 0) := by
  induction N generalizing reg with
  | zero => rfl
  | succ N ih =>
    rw [List.range_succ_eq_map, List.map_cons, List.map_map]
    simp only [Gen.step, Gen.pas, hs]
    rw [ih]
    congr 1
    have hz := shift_and_one reg 0
    simp only [Nat.shiftRight_zero] at hz
    rw [hz]
    simp only [Function.iterate_zero, id]
    cases reg.testBit 0 <;> rfl

/-- **C10 (code).** `code_mls(n)` exists for every n in 1..16, has `2^n - 1` bits, exactly `2^(n-1)` of which are ones. -/
theorem C10_code_mls (n : Nat) (h1 : 1 ≤ n) (h16 : n ≤ 16) :
    ∃ bs, codeMls n = some bs ∧ bs.length = 2 ^ n - 1 ∧ bs.count true = 2 ^ (n - 1) := by
  obtain ⟨ht, _⟩ := table_ok n h16 h1
  have one_lt : 1 < 2 ^ n := Nat.one_lt_two_pow (by omega)
  have hl : Lin n (regSuivant n (polT n)) := regSuivant_lin h1 (by omega)
  have hb := gen_bits { reglen := n, pol := polT n, p0 := 1, sortie := .poidsFaible } rfl (2 ^ n - 1) 1
  refine ⟨_, by simp only [codeMls, ht, Option.map_some]; rfl, ?_, ?_⟩
  · simp only [Gen.configure]
    rw [hb]; simp
  · simp only [Gen.configure]
    rw [hb]
    obtain ⟨p, hp, hall⟩ := C10_periode_maximale n h1 h16
    rw [ht] at hp
    simp only [Option.some.injEq] at hp
    subst hp
    have huniq := (hall 1 (by omega) one_lt).2
    -- the visited states are a permutation of 1 .. 2^n-1
    have hperm : ((List.range (2 ^ n - 1)).map (fun k => (regSuivant n (polT n))^[k] 1)).Perm (List.range' 1 (2 ^ n - 1)) := by
      rw [List.perm_ext_iff_of_nodup]
      · intro y
        simp only [List.mem_map, List.mem_range, List.mem_range'_1]
        constructor
        · rintro ⟨k, _, rfl⟩
          have := orbit_ne_zero n h1 h16 k 1 one_lt (by omega)
          have := (hl.iterate k).lt 1 one_lt
          omega
        · rintro ⟨a, b⟩
          obtain ⟨k, ⟨hk, he⟩, _⟩ := huniq y (by omega) (by omega)
          exact ⟨k, hk, he⟩
      · rw [List.nodup_map_iff_inj_on (List.nodup_range)]
        intro a ha b hb' hab
        simp only [List.mem_range] at ha hb'
        obtain ⟨k, _, hu⟩ := huniq ((regSuivant n (polT n))^[a] 1)
          (Nat.pos_of_ne_zero (orbit_ne_zero n h1 h16 a 1 one_lt (by omega))) ((hl.iterate a).lt 1 one_lt)
        rw [hu a ⟨ha, rfl⟩, hu b ⟨hb', hab.symm⟩]
      · exact List.nodup_range'
    have e : (List.range (2 ^ n - 1)).map (fun k => ((regSuivant n (polT n))^[k] 1).testBit 0)
        = ((List.range (2 ^ n - 1)).map (fun k => (regSuivant n (polT n))^[k] 1)).map (fun x => x.testBit 0) := by
      rw [List.map_map]; rfl
    rw [e, (hperm.map _).count_eq]
    have key : ∀ m, ((List.range' 1 (2 * m + 1)).map (fun x => x.testBit 0)).count true = m + 1 := by
      intro m
      induction m with
      | zero => rfl
      | succ m ih =>
        rw [show 2 * (m + 1) + 1 = (2 * m + 1) + 1 + 1 by omega, List.range'_1_concat, List.range'_1_concat]
        simp only [List.map_append, List.count_append, ih]
        have e1 : (1 + (2 * m + 1)).testBit 0 = false := by simp [Nat.testBit_zero]; omega
        have e2 : (1 + (2 * m + 1 + 1)).testBit 0 = true := by simp [Nat.testBit_zero]; omega
        simp only [List.map_cons, List.map_nil, e1, e2]
        simp
    have hpow : 2 ^ n - 1 = 2 * (2 ^ (n - 1) - 1) + 1 := by
      have : 2 ^ n = 2 * 2 ^ (n - 1) := by rw [← Nat.pow_succ']; congr 1; omega
      have : 0 < 2 ^ (n - 1) := Nat.two_pow_pos _
      omega
    rw [hpow, key]
    have : 0 < 2 ^ (n - 1) := Nat.two_pow_pos _
    omega

/-- **C10 (rejection).** No polynomial is offered outside 1..16: the library raises an error, for every integer. -/
theorem C10_rejet (n : Int) (h : n < 1 ∨ 16 < n) : polynomePrimitifBinaire n = none := by
  unfold polynomePrimitifBinaire
  rw [if_pos]
  simp only [polsPrim, List.length_cons, List.length_nil]
  omega

private theorem default_table : ∀ n ≤ 16, 1 ≤ n →
    0 < (regSuivant n (polT n))^[16 - n] 0xfa17 ∧ (regSuivant n (polT n))^[16 - n] 0xfa17 < 2 ^ n := by
  decide +kernel

/-- **C42.** The generator configured by its register length alone starts with 0xfa17, which has more bits than the
register when `n < 16`; nevertheless it never gets stuck at zero: after `16 - n` bits the register is a non-zero
`n`-bit value, and from then on it runs through the full maximal-length cycle. -/
theorem C42_generateur_defaut (n : Nat) (h1 : 1 ≤ n) (h16 : n ≤ 16) :
    ∃ g, Gen.configureLon n = some g ∧
      let r := (regSuivant n g.config.pol)^[16 - n] g.reg
      0 < r ∧ r < 2 ^ n ∧ (regSuivant n g.config.pol)^[2 ^ n - 1] r = r ∧
      ∀ y, 0 < y → y < 2 ^ n → ∃! k, k < 2 ^ n - 1 ∧ (regSuivant n g.config.pol)^[k] r = y := by
  obtain ⟨ht, _⟩ := table_ok n h16 h1
  obtain ⟨p, hp, hall⟩ := C10_periode_maximale n h1 h16
  rw [ht] at hp
  simp only [Option.some.injEq] at hp
  subst hp
  have hd := default_table n h16 h1
  refine ⟨_, by simp only [Gen.configureLon, h16, if_true, ht, Option.map_some]; rfl, ?_⟩
  exact ⟨hd.1, hd.2, (hall _ hd.1 hd.2).1, (hall _ hd.1 hd.2).2⟩

end Verif.Lfsr
