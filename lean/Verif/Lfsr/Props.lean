import Verif.Lfsr.Spec
import Verif.Lfsr.Lemmas
/-! # Properties C09, C11, C12 of the LFSR generator and receiver -/
namespace Verif.Lfsr

private theorem countP_xorSum (n : Nat) (f : Nat → Bool) :
    decide ((List.range n).countP f % 2 = 1) = xorSum n f := by
  induction n with
  | zero => rfl
  | succ n ih =>
    rw [xorSum_succ, ← ih, List.range_succ, List.countP_append]
    simp only [List.countP_cons, List.countP_nil, Nat.zero_add]
    cases h : f n
    · simp
    · simp only [if_true, Bool.xor_true]
      rcases Nat.mod_two_eq_zero_or_one ((List.range n).countP f) with h' | h' <;> simp [Nat.add_mod, h']

private theorem rec_iff {n pol : Nat} {b : Nat → Bool} :
    Recurrence n pol b ↔ ∀ t, b (t + n) = xorSum n (fun k => pol.testBit k && b (t + k)) := by
  unfold Recurrence
  simp only [countP_xorSum]

/-- the register after `t` steps of the generator -/
private def regA (n pol p0 : Nat) : Nat → Nat
  | 0 => p0
  | t + 1 => regSuivant n pol (regA n pol p0 t)

private theorem regSuivant_fenetre {n pol t reg : Nat} {b : Nat → Bool} (h1 : 1 ≤ n) (h32 : n ≤ 32)
    (hb : Recurrence n pol b) (h : Fenetre n b t reg) : Fenetre n b (t + 1) (regSuivant n pol reg) := by
  unfold regSuivant
  rw [popcount_par, fenetre_xor32 h32 h, ← rec_iff.1 hb t]
  exact fenetre_decale h1 h

private theorem fenetre_init {n p0 : Nat} {b : Nat → Bool} (hp : p0 < 2 ^ n)
    (h : ∀ k < n, b k = p0.testBit k) : Fenetre n b 0 p0 := by
  intro k
  by_cases hk : k < n
  · simp [hk, h k hk]
  · simp [hk, testBit_ge hp (by omega : n ≤ k)]

private theorem gen_step_faible (c : Config) (h1 : 1 ≤ c.reglen) (h32 : c.reglen ≤ 32) (hs : c.sortie = .poidsFaible)
    (b : Nat → Bool) (hb : Recurrence c.reglen c.pol b) (N t reg : Nat) (h : Fenetre c.reglen b t reg) :
    (Gen.step ⟨c, reg⟩ N).1 = (List.range' t N).map b ∧
    ∃ reg', (Gen.step ⟨c, reg⟩ N).2 = ⟨c, reg'⟩ ∧ Fenetre c.reglen b (t + N) reg' := by
  induction N generalizing t reg with
  | zero => exact ⟨rfl, reg, rfl, h⟩
  | succ N ih =>
    have h' := regSuivant_fenetre h1 h32 hb h
    obtain ⟨i1, r', i2, i3⟩ := ih (t + 1) _ h'
    simp only [Gen.step, Gen.pas, hs]
    refine ⟨?_, r', i2, by rw [show t + (N + 1) = t + 1 + N by omega]; exact i3⟩
    rw [List.range'_succ, List.map_cons, i1]
    congr 1
    have := h 0
    have hz := shift_and_one reg 0
    simp only [Nat.shiftRight_zero] at hz
    rw [hz, this]
    simp [show 0 < c.reglen by omega]
    cases b t <;> rfl

/-- **C09 (recurrence).** In low-bit mode, with any initial register value of `reglen` bits, the emitted bits are the
first terms of the linear recurring sequence whose first `reglen` terms are the bits of the register;
and such a sequence exists and is unique. -/
theorem C09_sortie_recurrence (c : Config) (h1 : 1 ≤ c.reglen) (h32 : c.reglen ≤ 32) (hp : c.p0 < 2 ^ c.reglen)
    (hs : c.sortie = .poidsFaible) :
    ∃ b : Nat → Bool, Recurrence c.reglen c.pol b ∧ (∀ k < c.reglen, b k = c.p0.testBit k) ∧
      (∀ N, ((Gen.configure c).step N).1 = (List.range N).map b) ∧
      (∀ b', Recurrence c.reglen c.pol b' → (∀ k < c.reglen, b' k = c.p0.testBit k) → b' = b) := by
  have uniq : ∀ b b' : Nat → Bool, Recurrence c.reglen c.pol b → (∀ k < c.reglen, b k = c.p0.testBit k) →
      Recurrence c.reglen c.pol b' → (∀ k < c.reglen, b' k = c.p0.testBit k) → ∀ t, b' t = b t := by
    intro b b' hb i hb' i' t
    induction t using Nat.strongRecOn with
    | ind t ih =>
      by_cases ht : t < c.reglen
      · rw [i t ht, i' t ht]
      · have e : t = (t - c.reglen) + c.reglen := by omega
        rw [e, rec_iff.1 hb, rec_iff.1 hb']
        apply xorSum_congr
        intro k hk
        rw [ih _ (by omega)]
  -- existence: read the lowest bit of the register
  let b : Nat → Bool := fun t => (regA c.reglen c.pol c.p0 t).testBit 0
  have lt : ∀ t k, c.reglen ≤ k → (regA c.reglen c.pol c.p0 t).testBit k = false := by
    intro t
    induction t with
    | zero => intro k hk; exact testBit_ge hp hk
    | succ t ih =>
      intro k hk
      simp only [regA, regSuivant, popcount_par]
      rw [decale_testBit _ _ _ h1, ih _ (by omega)]
      simp; omega
  have sh : ∀ t k, k < c.reglen → (regA c.reglen c.pol c.p0 t).testBit k = b (t + k) := by
    intro t k
    induction k generalizing t with
    | zero => intro _; rfl
    | succ k ih =>
      intro hk
      have := ih (t + 1) (by omega)
      rw [show t + (k + 1) = t + 1 + k by omega, ← this]
      simp only [regA, regSuivant, popcount_par]
      rw [decale_testBit _ _ _ h1]
      have : ¬ k = c.reglen - 1 := by omega
      simp [this]
  have win : ∀ t, Fenetre c.reglen b t (regA c.reglen c.pol c.p0 t) := by
    intro t k
    by_cases hk : k < c.reglen
    · simp [hk, sh t k hk]
    · simp [hk, lt t k (by omega)]
  have hrec : Recurrence c.reglen c.pol b := by
    rw [rec_iff]
    intro t
    have w := win (t + 1) (c.reglen - 1)
    have e1 : c.reglen - 1 < c.reglen := by omega
    have e2 : t + 1 + (c.reglen - 1) = t + c.reglen := by omega
    simp only [e1, decide_true, Bool.true_and, e2] at w
    rw [← w]
    simp only [regA, regSuivant, popcount_par]
    rw [decale_testBit _ _ _ h1, lt t _ (by omega), fenetre_xor32 h32 (win t)]
    simp
  have hini : ∀ k < c.reglen, b k = c.p0.testBit k := by
    intro k hk
    have := sh 0 k hk
    rw [Nat.zero_add] at this
    exact this.symm
  refine ⟨b, hrec, hini, ?_, fun b' h h' => funext (uniq b b' hrec hini h h')⟩
  intro N
  have := (gen_step_faible c h1 h32 hs b hrec N 0 c.p0 (fenetre_init hp hini)).1
  rw [List.range_eq_range']
  exact this

example : ∃ c : Config, 1 ≤ c.reglen ∧ c.reglen ≤ 32 ∧ c.p0 < 2 ^ c.reglen ∧ c.sortie = .poidsFaible ∧
    ((Gen.configure c).step 7).1 = [true, false, false, true, true, true, false] :=
  ⟨{ reglen := 3, pol := 5, p0 := 1 }, by decide⟩

/-- **C09 (cutting).** Asking for `a` bits and then `b` bits is asking for `a + b` bits, in every output mode. -/
theorem C09_decoupage (g : Gen) (a b : Nat) :
    g.step (a + b) = ((g.step a).1 ++ ((g.step a).2.step b).1, ((g.step a).2.step b).2) := by
  induction a generalizing g with
  | zero => simp [Gen.step]
  | succ a ih =>
    rw [show a + 1 + b = (a + b) + 1 by omega]
    simp only [Gen.step, ih, List.cons_append]

/-- **C09 (reversibility).** With the lowest bit tapped, two different register values never have the same
successor. -/
theorem C09_reversible (n pol r r' : Nat) (h1 : 1 ≤ n) (hp : pol.testBit 0 = true)
    (hr : r < 2 ^ n) (hr' : r' < 2 ^ n) (h : regSuivant n pol r = regSuivant n pol r') : r = r' :=
  regSuivant_inj h1 hp hr hr' h

example : (regSuivant 3 5 6 = 7) ∧ (regSuivant 3 5 7 = 3) := by decide

/-! ## Receiver -/

private theorem rec_sum {r : Rec} {t : Nat} {b : Nat → Bool} (hb : Recurrence r.reglen r.pol b)
    (h : Fenetre r.reglen b t r.reg) : xorBits (r.reg &&& r.pol) r.reglen = (b (t + r.reglen)).toNat := by
  rw [xorBits_eq, fenetre_xor h, ← rec_iff.1 hb t]

private theorem toNat_inj (a b : Bool) : (a.toNat = b.toNat) = (a = b) := by cases a <;> cases b <;> simp

/-- locked on `b`: the register is the window preceding the next bit -/
private theorem pas_locked {r : Rec} {t : Nat} {b : Nat → Bool} (h1 : 1 ≤ r.reglen)
    (hb : Recurrence r.reglen r.pol b) (h : Fenetre r.reglen b t r.reg) (hv : r.verrou = true) (x : Bool) :
    (r.pas x).reglen = r.reglen ∧ (r.pas x).pol = r.pol ∧ Fenetre r.reglen b (t + 1) (r.pas x).reg ∧
    (r.pas x).nbBits = r.nbBits + 1 ∧
    (r.pas x).nbErreurs = r.nbErreurs + (if x = b (t + r.reglen) then 0 else 1) ∧
    (r.pas x).errConsec = (if x = b (t + r.reglen) then 0 else r.errConsec + 1) ∧
    (r.pas x).verrou = decide ((r.pas x).errConsec ≤ 5) := by
  have hs := rec_sum hb h
  have hw := fenetre_decale h1 h
  unfold Rec.pas
  simp only [hv, Bool.true_eq_false, if_false, hs, toNat_inj]
  by_cases hx : x = b (t + r.reglen)
  · simp [hx, hw]
  · simp only [hx, if_false]
    by_cases h5 : r.errConsec + 1 > 5
    · simp [h5, hw]; omega
    · simp [h5, hw]; omega

/-- the bits received when `b`, from time `t`, is corrupted by the error pattern `e` -/
def bruite (b : Nat → Bool) (t : Nat) (e : List Bool) : List Bool :=
  e.mapIdx (fun i x => x ^^ b (t + i))

private theorem bruite_cons (b : Nat → Bool) (t : Nat) (x : Bool) (e : List Bool) :
    bruite b t (x :: e) = (x ^^ b t) :: bruite b (t + 1) e := by
  simp [bruite, List.mapIdx_cons, Nat.add_assoc, Nat.add_comm 1]

/-- Receiver `r` is locked in phase with the sequence `b`, having last consumed the bit of index `t + reglen - 1`:
its register contains the last `reglen` bits of the sequence. -/
def EnPhase (r : Rec) (b : Nat → Bool) (t : Nat) : Prop :=
  r.verrou = true ∧ ∀ k, r.reg.testBit k = (decide (k < r.reglen) && b (t + k))

private theorem rafale_split (c : Nat) (e : List Bool) (x : Bool)
    (h : SansRafale6 (List.replicate c true ++ (x :: e))) :
    (x = false → SansRafale6 (List.replicate 0 true ++ e)) ∧
    (x = true → c + 1 ≤ 5 ∧ SansRafale6 (List.replicate (c + 1) true ++ e)) := by
  constructor
  · rintro rfl
    intro hi
    apply h
    refine hi.trans ?_
    exact ⟨List.replicate c true ++ [false], [], by simp⟩
  · rintro rfl
    have e1 : List.replicate (c + 1) true ++ e = List.replicate c true ++ (true :: e) := by
      rw [List.replicate_succ']; simp
    refine ⟨?_, by rw [e1]; exact h⟩
    by_cases hc : c + 1 ≤ 5
    · exact hc
    · exfalso
      apply h
      rw [← e1]
      refine ⟨[], List.replicate (c + 1 - 6) true ++ e, ?_⟩
      simp only [List.nil_append, ← List.append_assoc, List.replicate_append_replicate]
      rw [show 6 + (c + 1 - 6) = c + 1 by omega]

/-- **C12.** A receiver locked in phase with a sequence (with `errConsec` errors just before), fed with that sequence
corrupted by *any* error pattern in which no 6 consecutive errors occur, stays locked and in phase,
counts exactly the bits received and exactly the corrupted ones. -/
theorem C12_compte_exact (r : Rec) (b : Nat → Bool) (t : Nat) (e : List Bool) (h1 : 1 ≤ r.reglen)
    (hb : Recurrence r.reglen r.pol b) (h : EnPhase r b t)
    (he : SansRafale6 (List.replicate r.errConsec true ++ e)) :
    EnPhase (r.step (bruite b (t + r.reglen) e)) b (t + e.length) ∧
    (r.step (bruite b (t + r.reglen) e)).nbBits = r.nbBits + e.length ∧
    (r.step (bruite b (t + r.reglen) e)).nbErreurs = r.nbErreurs + e.count true := by
  induction e generalizing r t with
  | nil => exact ⟨h, rfl, rfl⟩
  | cons x e ih =>
    rw [bruite_cons]
    simp only [Rec.step, List.foldl_cons]
    obtain ⟨hv, hw⟩ := h
    obtain ⟨a1, a2, a3, a4, a5, a6, a7⟩ := pas_locked h1 hb hw hv (x ^^ b (t + r.reglen))
    have hx : ((x ^^ b (t + r.reglen)) = b (t + r.reglen)) ↔ x = false := by
      cases x <;> cases b (t + r.reglen) <;> simp
    obtain ⟨s1, s2⟩ := rafale_split _ _ _ he
    have := ih (r.pas (x ^^ b (t + r.reglen))) (t + 1) (by rw [a1]; exact h1) (by rw [a1, a2]; exact hb)
      ⟨by
        rw [a7, a6]
        cases x
        · simp
        · have := (s2 rfl).1
          simp; omega, by rw [a1]; exact a3⟩ (by
        rw [a6]
        cases x
        · rw [if_pos (hx.2 rfl)]; exact s1 rfl
        · rw [if_neg (by simp)]; exact (s2 rfl).2)
    rw [a1, show t + 1 + r.reglen = t + r.reglen + 1 by omega] at this
    simp only [Rec.step] at this
    obtain ⟨t1, t2, t3⟩ := this
    refine ⟨?_, ?_, ?_⟩
    · rw [show t + (x :: e).length = t + 1 + e.length by simp; omega]; exact t1
    · rw [t2, a4]; simp; omega
    · rw [t3, a5]
      cases x
      · rw [if_pos (hx.2 rfl)]; simp
      · rw [if_neg (by simp)]; simp; omega

/-- **C12 (reported state).** As long as no six consecutive bits are wrong `lis_etat` reports "locked", with the default rate 0.5 (`none`) while
fewer than 10 bits were counted, then exactly (corrupted bits) / (bits received). -/
theorem C12_lis_etat (r : Rec) (b : Nat → Bool) (t : Nat) (e : List Bool) (h1 : 1 ≤ r.reglen)
    (hb : Recurrence r.reglen r.pol b) (h : EnPhase r b t)
    (he : SansRafale6 (List.replicate r.errConsec true ++ e)) :
    (r.step (bruite b (t + r.reglen) e)).lisEtat =
      (true, if r.nbBits + e.length < 10 then none else some (r.nbErreurs + e.count true, r.nbBits + e.length)) := by
  obtain ⟨⟨hv, _⟩, hn, hc⟩ := C12_compte_exact r b t e h1 hb h he
  unfold Rec.lisEtat
  rw [hv, hn, hc]
  by_cases h10 : r.nbBits + e.length < 10
  · rw [if_pos h10, if_pos (Or.inr (Or.inr h10))]
  · rw [if_neg h10, if_neg]
    rintro (h | h | h)
    · omega
    · exact absurd h (by decide)
    · omega

/-- An unlocked receiver reports "not locked" and the default rate 0.5. -/
theorem C12_lis_etat_deverrouille (r : Rec) (h : r.verrou = false) : r.lisEtat = (false, none) := by
  simp [Rec.lisEtat, h]

/-- **C12 (loss of lock).** Conversely the sixth consecutive error unlocks the receiver at once. -/
theorem C12_perte (r : Rec) (b : Nat → Bool) (t : Nat) (h1 : 1 ≤ r.reglen) (hb : Recurrence r.reglen r.pol b)
    (h : EnPhase r b t) (h0 : r.errConsec = 0) :
    (r.step (bruite b (t + r.reglen) (List.replicate 6 true))).verrou = false ∧
    (r.step (bruite b (t + r.reglen) (List.replicate 5 true))).verrou = true := by
  have h5 := C12_compte_exact r b t (List.replicate 5 true) h1 hb h (by
    rw [h0]; unfold SansRafale6; decide)
  refine ⟨?_, h5.1.1⟩
  have e : bruite b (t + r.reglen) (List.replicate 6 true)
      = bruite b (t + r.reglen) (List.replicate 5 true) ++ [true ^^ b (t + r.reglen + 5)] := by
    simp [bruite, List.mapIdx, List.replicate, List.mapIdx.go]
  rw [e]
  simp only [Rec.step, List.foldl_append, List.foldl_cons, List.foldl_nil]
  -- the error counter is exactly 5 after five errors
  have cnt : ∀ n (r : Rec) t, 1 ≤ r.reglen → Recurrence r.reglen r.pol b → EnPhase r b t → r.errConsec + n ≤ 5 →
      (r.step (bruite b (t + r.reglen) (List.replicate n true))).errConsec = r.errConsec + n ∧
      (r.step (bruite b (t + r.reglen) (List.replicate n true))).reglen = r.reglen ∧
      (r.step (bruite b (t + r.reglen) (List.replicate n true))).pol = r.pol := by
    intro n
    induction n with
    | zero => intro r t _ _ _ _; exact ⟨rfl, rfl, rfl⟩
    | succ n ih =>
      intro r t h1 hb h hn
      rw [List.replicate_succ, bruite_cons]
      simp only [Rec.step, List.foldl_cons]
      obtain ⟨a1, a2, a3, a4, a5, a6, a7⟩ := pas_locked h1 hb h.2 h.1 (true ^^ b (t + r.reglen))
      have hx : ¬ ((true ^^ b (t + r.reglen)) = b (t + r.reglen)) := by cases b (t + r.reglen) <;> simp
      rw [if_neg hx] at a6
      have := ih (r.pas (true ^^ b (t + r.reglen))) (t + 1) (by rw [a1]; exact h1) (by rw [a1, a2]; exact hb)
        ⟨by rw [a7, a6]; simp; omega, by rw [a1]; exact a3⟩ (by rw [a6]; omega)
      rw [a1, a2, a6, show t + 1 + r.reglen = t + r.reglen + 1 by omega] at this
      simp only [Rec.step] at this
      exact ⟨by rw [this.1]; omega, this.2⟩
  obtain ⟨c1, c2, c3⟩ := cnt 5 r t h1 hb h (by omega)
  have hl := h5.1
  simp only [Rec.step] at c1 c2 c3 hl
  obtain ⟨a1, a2, a3, a4, a5, a6, a7⟩ := pas_locked (by rw [c2]; exact h1) (by rw [c2, c3]; exact hb) hl.2 hl.1
    (true ^^ b (t + r.reglen + 5))
  rw [a7, a6, c1, h0, c2]
  have hx : ¬ ((true ^^ b (t + r.reglen + 5)) = b (t + (List.replicate 5 true).length + r.reglen)) := by
    rw [show t + (List.replicate 5 true).length + r.reglen = t + r.reglen + 5 by simp; omega]
    cases b (t + r.reglen + 5) <;> simp
  rw [if_neg hx]
  rfl

/-- **C11 (acquisition).** A receiver that has just been configured, reset or has just lost lock — more generally any
unlocked receiver whose run of good bits is at most `20 - reglen` — fed with `reglen + 21` or more error-free bits of a
sequence satisfying its recurrence (from any phase) is locked, in phase, and has counted no error since;
it stays so for ever on error-free input. -/
theorem C11_auto_synchronisation (r : Rec) (b : Nat → Bool) (h1 : 1 ≤ r.reglen) (hr : r.reg < 2 ^ r.reglen)
    (hv : r.verrou = false) (hok : r.okConsec + r.reglen ≤ 20)
    (hb : Recurrence r.reglen r.pol b) (N : Nat) (hN : r.reglen + 21 ≤ N) :
    EnPhase (r.step ((List.range N).map b)) b (N - r.reglen) ∧
    (r.step ((List.range N).map b)).nbErreurs = r.nbErreurs := by
  -- phase 1: filling the register
  have fill : ∀ m, m ≤ r.reglen → ∃ r', r.step ((List.range m).map b) = r' ∧ r'.reglen = r.reglen ∧ r'.pol = r.pol ∧
      r'.verrou = false ∧ r'.okConsec ≤ r.okConsec + m ∧ r'.nbErreurs = r.nbErreurs ∧
      ∀ k, r'.reg.testBit k = (if k + m < r.reglen then r.reg.testBit (k + m)
        else decide (k < r.reglen) && b (k + m - r.reglen)) := by
    intro m
    induction m with
    | zero =>
      intro _
      refine ⟨r, rfl, rfl, rfl, hv, by omega, rfl, ?_⟩
      intro k
      by_cases hk : k + 0 < r.reglen
      · simp at hk; simp [hk]
      · simp at hk; simp [show ¬ k < r.reglen by omega, testBit_ge hr hk]
    | succ m ih =>
      intro hm
      obtain ⟨r', e, a1, a2, a3, a4, a5, a6⟩ := ih (by omega)
      rw [List.range_succ, List.map_append]
      simp only [Rec.step, List.foldl_append] at e ⊢
      rw [e]
      simp only [List.map_cons, List.map_nil, List.foldl_cons, List.foldl_nil]
      have hok' : (r'.pas (b m)).okConsec ≤ r'.okConsec + 1 ∧ (r'.pas (b m)).verrou = false ∧
          (r'.pas (b m)).reglen = r'.reglen ∧ (r'.pas (b m)).pol = r'.pol ∧ (r'.pas (b m)).nbErreurs = r'.nbErreurs ∧
          (r'.pas (b m)).reg = ((r'.reg >>> 1) ||| ((b m).toNat <<< (r'.reglen - 1))) := by
        unfold Rec.pas
        simp only [a3, if_true]
        split
        · rename_i hh
          have : ¬ (r'.okConsec + 1 > 20) := by omega
          simp [this]
        · simp
      obtain ⟨o1, o2, o3, o4, o5, o6⟩ := hok'
      refine ⟨_, rfl, by rw [o3, a1], by rw [o4, a2], o2, by omega, by rw [o5, a5], ?_⟩
      intro k
      rw [o6, a1, decale_testBit _ _ _ h1, a6 (k + 1)]
      by_cases c1 : k + 1 + m < r.reglen
      · have c2 : k + (m + 1) < r.reglen := by omega
        have c3 : ¬ k = r.reglen - 1 := by omega
        simp only [c1, c2, c3, if_true, decide_false, Bool.false_and, Bool.or_false]
        congr 1; omega
      · have c2 : ¬ k + (m + 1) < r.reglen := by omega
        simp only [c1, c2, if_false]
        by_cases c3 : k = r.reglen - 1
        · have c4 : ¬ (k + 1 < r.reglen) := by omega
          have c5 : k < r.reglen := by omega
          have c6 : k + (m + 1) - r.reglen = m := by omega
          simp only [c3] at c4 c5 c6 ⊢
          simp [c5, c6, show ¬ (r.reglen - 1 + 1 < r.reglen) by omega]
        · by_cases c4 : k + 1 < r.reglen
          · have c6 : k + (m + 1) - r.reglen = k + 1 + m - r.reglen := by omega
            simp [c3, c4, c6, show k < r.reglen by omega]
          · simp [c3, c4, show ¬ k < r.reglen by omega]
  obtain ⟨r1, e1, a1, a2, a3, a4, a5, a6⟩ := fill r.reglen (Nat.le_refl _)
  have w1 : Fenetre r.reglen b 0 r1.reg := by
    intro k
    rw [a6 k]
    simp [show ¬ (k + r.reglen < r.reglen) by omega]
  -- phase 2: every bit is now predicted
  have next : ∀ m, ∃ r', r1.step ((List.range' r.reglen m).map b) = r' ∧ r'.reglen = r.reglen ∧ r'.pol = r.pol ∧
      Fenetre r.reglen b m r'.reg ∧ r'.nbErreurs = r.nbErreurs ∧
      ((r'.verrou = true ∧ r'.errConsec = 0) ∨ (r'.verrou = false ∧ m ≤ r'.okConsec ∧ r'.okConsec ≤ 20)) := by
    intro m
    induction m with
    | zero => exact ⟨r1, rfl, a1, a2, w1, a5, Or.inr ⟨a3, by omega, by omega⟩⟩
    | succ m ih =>
      obtain ⟨r', e, b1, b2, b3, b4, b5⟩ := ih
      rw [List.range'_1_concat, List.map_append]
      simp only [Rec.step, List.foldl_append] at e ⊢
      rw [e]
      simp only [List.map_cons, List.map_nil, List.foldl_cons, List.foldl_nil]
      have hs : xorBits (r'.reg &&& r'.pol) r'.reglen = (b (m + r.reglen)).toNat := by
        rw [← b1] at b3 ⊢
        exact rec_sum (by rw [b1, b2]; exact hb) b3
      have hw := fenetre_decale h1 b3
      rw [show r.reglen + m = m + r.reglen by omega]
      rcases b5 with ⟨v, hc⟩ | ⟨v, hc, hc2⟩
      · unfold Rec.pas
        simp only [v, Bool.true_eq_false, if_false, hs, if_true]
        refine ⟨_, rfl, ?_⟩
        simp [b1, b2, b4, hw]
      · unfold Rec.pas
        simp only [v, if_true, hs]
        by_cases h20 : r'.okConsec + 1 > 20
        · simp only [h20, if_true]
          refine ⟨_, rfl, ?_⟩
          simp [b1, b2, b4, hw]
        · simp only [h20, if_false]
          refine ⟨_, rfl, ?_⟩
          simp [b1, b2, b4, hw]
          omega
  obtain ⟨r', e, b1, b2, b3, b4, b5⟩ := next (N - r.reglen)
  have tot : r.step ((List.range N).map b) = r' := by
    rw [← e, ← e1]
    simp only [Rec.step]
    rw [← List.foldl_append, ← List.map_append]
    congr 2
    rw [List.range_eq_range', List.range_eq_range']
    have := List.range'_append_1 (s := 0) (m := r.reglen) (n := N - r.reglen)
    rw [Nat.zero_add, show r.reglen + (N - r.reglen) = N by omega] at this
    exact this.symm
  rw [tot]
  refine ⟨⟨?_, ?_⟩, b4⟩
  · rcases b5 with ⟨v, _⟩ | ⟨_, c, c2⟩
    · exact v
    · omega
  · rw [b1]; exact b3

/-- Configured receivers do satisfy the hypotheses of C11, for each supported length and any previous state. -/
theorem C11_hypotheses (r : Rec) (n : Nat) (h1 : 1 ≤ n) (h16 : n ≤ 16) :
    ∃ r' p, r.configure n = some r' ∧ polynomePrimitifBinaire n = some p ∧ r'.reglen = n ∧ r'.pol = p ∧
      r'.reg < 2 ^ r'.reglen ∧ r'.verrou = false ∧ r'.okConsec + r'.reglen ≤ 20 ∧ r'.nbErreurs = 0 := by
  have tab : ∀ n ≤ 16, 1 ≤ n → (polynomePrimitifBinaire (n : Nat)).isSome = true := by decide
  obtain ⟨p, hp⟩ := Option.isSome_iff_exists.1 (tab n h16 h1)
  refine ⟨({ r with reglen := n, pol := p, reg := 1 } : Rec).reset, p,
    by simp only [Rec.configure, h16, if_true, hp, Option.map_some], hp, rfl, rfl, ?_, rfl, ?_, rfl⟩
  · simp only [Rec.reset]
    have : 2 ^ 1 ≤ 2 ^ n := Nat.pow_le_pow_right (by omega) h1
    omega
  · simp only [Rec.reset]; omega

/-- A possible history of a 2-bit receiver, and then the error-free sequence 1,0,1,1,0,1,1,… -/
def histFausse : List Bool :=
  [false, true] ++ [true, false, true, true, false, true, true, false, true, true, false, true, true, false, true,
    true, false, true, true, false]
def seqFausse (t : Nat) : Bool := decide (t % 3 ≠ 1)

/-- **C11 fails for arbitrary histories**: with some previous history (here 22 bits of another sequence), the receiver
locks *out of phase* on an error-free sequence and stays so for ever: after any number `3M` of further
error-free bits it is still locked and reports `2M` bit errors that never happened. -/
theorem C11_refute_histoire_quelconque :
    ∃ r, Rec.zero.configure 2 = some r ∧ Recurrence 2 r.pol seqFausse ∧
      ∀ M, (r.step (histFausse ++ (List.range (1 + 3 * M)).map seqFausse)).verrou = true ∧
        (r.step (histFausse ++ (List.range (1 + 3 * M)).map seqFausse)).nbErreurs = 2 * M := by
  have blk : ∀ nb ne, (((⟨2, 2, 3, true, 0, 21, nb, ne⟩ : Rec).pas false).pas true).pas true
      = ⟨2, 2, 3, true, 0, 21, nb + 3, ne + 2⟩ := by
    intro nb ne
    have x2 : xorBits 2 2 = 1 := by decide
    have x3 : xorBits 3 2 = 0 := by decide
    have x1 : xorBits 1 2 = 1 := by decide
    have p1 : (⟨2, 2, 3, true, 0, 21, nb, ne⟩ : Rec).pas false = ⟨2, 3, 3, true, 1, 21, nb + 1, ne + 1⟩ := by
      simp [Rec.pas, x2]
    have p2 : (⟨2, 3, 3, true, 1, 21, nb + 1, ne + 1⟩ : Rec).pas true = ⟨2, 1, 3, true, 2, 21, nb + 2, ne + 2⟩ := by
      simp [Rec.pas, x3]
    have p3 : (⟨2, 1, 3, true, 2, 21, nb + 2, ne + 2⟩ : Rec).pas true = ⟨2, 2, 3, true, 0, 21, nb + 3, ne + 2⟩ := by
      simp [Rec.pas, x1]
    rw [p1, p2, p3]
  have gen : ∀ M s nb ne, s % 3 = 1 →
      (⟨2, 2, 3, true, 0, 21, nb, ne⟩ : Rec).step ((List.range' s (3 * M)).map seqFausse)
        = ⟨2, 2, 3, true, 0, 21, nb + 3 * M, ne + 2 * M⟩ := by
    intro M
    induction M with
    | zero => intro s nb ne _; rfl
    | succ M ih =>
      intro s nb ne hs
      rw [show 3 * (M + 1) = 3 * M + 1 + 1 + 1 by omega, List.range'_succ, List.range'_succ, List.range'_succ]
      have e0 : seqFausse s = false := by simp [seqFausse, hs]
      have e1 : seqFausse (s + 1) = true := by simp [seqFausse]; omega
      have e2 : seqFausse (s + 1 + 1) = true := by simp [seqFausse]; omega
      simp only [List.map_cons, e0, e1, e2, Rec.step, List.foldl_cons, blk]
      have := ih (s + 1 + 1 + 1) (nb + 3) (ne + 2) (by omega)
      simp only [Rec.step] at this
      rw [this]
      congr 1 <;> omega
  refine ⟨⟨2, 1, 3, false, 0, 0, 0, 0⟩, by decide, ?_, ?_⟩
  · intro t
    simp only [List.range_succ, List.range_zero, List.nil_append, List.countP_append, List.countP_cons,
      List.countP_nil, seqFausse]
    have h3 : t % 3 = 0 ∨ t % 3 = 1 ∨ t % 3 = 2 := by omega
    rcases h3 with h | h | h <;> simp [Nat.add_mod, h] <;> decide
  · intro M
    have e : (⟨2, 1, 3, false, 0, 0, 0, 0⟩ : Rec).step (histFausse ++ (List.range (1 + 3 * M)).map seqFausse)
        = ⟨2, 2, 3, true, 0, 21, 3 * M, 2 * M⟩ := by
      have h1 : (⟨2, 1, 3, false, 0, 0, 0, 0⟩ : Rec).step (histFausse ++ [true]) = ⟨2, 2, 3, true, 0, 21, 0, 0⟩ := by
        decide
      have h2 := gen M 1 0 0 rfl
      rw [← h1] at h2
      simp only [Rec.step] at h2 ⊢
      rw [← List.foldl_append] at h2
      rw [List.range_eq_range', Nat.add_comm 1, List.range'_succ, List.map_cons]
      simpa [seqFausse] using h2
    rw [e]
    exact ⟨rfl, rfl⟩

end Verif.Lfsr
