import Verif.BitStream.Sim
/-!
# Properties C01–C06, C41 of `BitStream`

`Spec.run` (file `Spec.lean`) is the user-level meaning of a history over plain lists of booleans;
`Impl.run` executes the same history with the modelled code.
-/
namespace Verif.BitStream
open Spec

/-- `s` is a stream value some variable holds after some history inside the contract,
and `l` is the list of bits the specification gives to that variable. -/
def Atteint (s : BS) (l : List Bool) : Prop :=
  ∃ ops σ os τ v, Spec.run Spec.init ops = some (σ, os) ∧ Impl.run Impl.init ops = .ok (τ, os) ∧
    s = τ v ∧ l = (σ v).bits

/-- Same, for histories that never call `resize` to truncate. -/
def AtteintSansTronc (s : BS) (l : List Bool) : Prop :=
  ∃ ops σ os τ v, ops.all sansTroncature = true ∧
    Spec.run Spec.init ops = some (σ, os) ∧ Impl.run Impl.init ops = .ok (τ, os) ∧
    s = τ v ∧ l = (σ v).bits

private theorem atteint_repr {s l} (h : Atteint s l) : Repr s l := by
  obtain ⟨ops, σ, os, τ, v, e, f, rfl, rfl⟩ := h
  obtain ⟨τ', f', hs⟩ := run_sim sim_init ops e
  rw [f'] at f
  simp only [Except.ok.injEq, Prod.mk.injEq] at f
  rw [← f.1]; exact (hs v).1

theorem atteintST_slack {s l} (h : AtteintSansTronc s l) : Repr s l ∧ Slack s := by
  obtain ⟨ops, σ, os, τ, v, ho, e, f, rfl, rfl⟩ := h
  exact ⟨atteint_repr ⟨ops, σ, os, τ, v, e, f, rfl, rfl⟩,
    run_slack sim_init (fun _ => vide_slack) ops ho e f v⟩

/-- The history used in the non-vacuity examples: pushes, padding, a 32-bit word, overwriting,
concatenation, truncation and reading on two streams. -/
def exempleHist : List Op :=
  [.push 0 true, .push 0 false, .padMult 0 5, .pushU32 0 0xdeadbeef#32, .set 0 3 true, .push 1 true,
   .append 1 0, .concat 2 1 0, .tronque 2 20, .push 2 true, .pop 1, .lire 2 7, .eof 1, .popU32 0, .lon 2]

/-! ## C01 -/

/-- **C01.** Any history inside the contract succeeds in the code, returns exactly what the list
specification returns, and leaves every stream with the length and bits the specification says. -/
theorem C01_histoire_fidele (ops : List Op) (σ : Nat → Flux) (os : List Out)
    (h : Spec.run Spec.init ops = some (σ, os)) :
    ∃ τ, Impl.run Impl.init ops = .ok (τ, os) ∧
      ∀ v, lon (τ v) = (σ v).bits.length ∧
        ∀ i (hi : i < (σ v).bits.length), get (τ v) i = .ok (σ v).bits[i] := by
  obtain ⟨τ, f, hs⟩ := run_sim sim_init ops h
  exact ⟨τ, f, fun v => ⟨(hs v).1.nb, (hs v).1.bit⟩⟩

example : (Spec.run Spec.init exempleHist).isSome = true := by decide

/-! ## C02 -/

/-- `n` successive `pop()`. -/
def popN (s : BS) : Nat → Except Err (List Bool × BS)
  | 0     => .ok ([], s)
  | n + 1 => do
    let (b, s) ← pop s
    let (bs, s) ← popN s n
    .ok (b :: bs, s)

private theorem popN_spec (s : BS) (l : List Bool) (h : Repr s l) (n : Nat) (hn : s.pos + n ≤ l.length) :
    popN s n = .ok ((l.drop s.pos).take n, { s with pos := s.pos + n }) := by
  induction n generalizing s with
  | zero => simp [popN]
  | succ n ih =>
    have hp : s.pos < l.length := by omega
    simp only [popN, pop_spec s l h hp, bind, Except.bind]
    rw [ih _ (repr_pos s l _ h) (by simp; omega)]
    simp only [List.drop_eq_getElem_cons hp, List.take_succ_cons]
    simp; omega

/-- **C02 (FIFO, eof).** On any reachable stream, after `restart()`, `n ≤ lon()` pops return the first `n` bits in
order, and `eof()` is then true exactly when all bits were read. -/
theorem C02_pop_fifo (s : BS) (l : List Bool) (h : Atteint s l) (n : Nat) (hn : n ≤ l.length) :
    ∃ s', popN (restart s) n = .ok (l.take n, s') ∧ eof s' = decide (n = l.length) := by
  have hr := atteint_repr h
  refine ⟨_, popN_spec (restart s) l (repr_pos s l 0 hr) n (by simp [restart]; omega), ?_⟩
  simp only [eof, restart, hr.nb]
  rw [decide_eq_decide]; omega

/-- **C02 (32-bit words).** Whatever bits precede and follow it, a word written by `push_u32` is read back
unchanged by `pop_u32`. -/
theorem C02_u32_round_trip (a b : List Bool) (w : BitVec 32) :
    ∃ τ os, Impl.run Impl.init (a.map (Op.push 0) ++ [Op.pushU32 0 w] ++ b.map (Op.push 0)
        ++ List.replicate a.length (Op.pop 0) ++ [Op.popU32 0]) = .ok (τ, os) ∧
      os.getLast? = some (Out.nb w.toNat) := by
  have runApp : ∀ (p q : List Op) σ σ1 o1 σ2 o2, Spec.run σ p = some (σ1, o1) → Spec.run σ1 q = some (σ2, o2) →
      Spec.run σ (p ++ q) = some (σ2, o1 ++ o2) := by
    intro p
    induction p with
    | nil =>
      intro q σ σ1 o1 σ2 o2 h1 h2
      simp only [Spec.run, Option.some.injEq, Prod.mk.injEq] at h1
      obtain ⟨rfl, rfl⟩ := h1
      simpa using h2
    | cons op p ih =>
      intro q σ σ1 o1 σ2 o2 h1 h2
      simp only [Spec.run] at h1
      split at h1
      · cases h1
      · rename_i σa oa ea
        split at h1
        · cases h1
        · rename_i σb ob eb
          simp only [Option.some.injEq, Prod.mk.injEq] at h1
          obtain ⟨rfl, rfl⟩ := h1
          have := ih q σa _ _ _ _ eb h2
          simp only [List.cons_append, Spec.run, ea, this]
  have pushes : ∀ (l : List Bool) σ, ∃ o σ', Spec.run σ (l.map (Op.push 0)) = some (σ', o) ∧
      (σ' 0).bits = (σ 0).bits ++ l ∧ (σ' 0).lus = (σ 0).lus := by
    intro l
    induction l with
    | nil => intro σ; exact ⟨[], σ, rfl, by simp, rfl⟩
    | cons x l ih =>
      intro σ
      obtain ⟨o, σ', e, hb, hl⟩ := ih (maj σ 0 ⟨(σ 0).bits ++ [x], (σ 0).lus⟩)
      refine ⟨.rien :: o, σ', ?_, ?_, ?_⟩
      · simp only [List.map_cons, Spec.run, Spec.step, e]
      · simpa [maj] using hb
      · simpa [maj] using hl
  have pops : ∀ (n : Nat) σ, (σ 0).lus + n ≤ (σ 0).bits.length → ∃ o σ',
      Spec.run σ (List.replicate n (Op.pop 0)) = some (σ', o) ∧
      (σ' 0).bits = (σ 0).bits ∧ (σ' 0).lus = (σ 0).lus + n := by
    intro n
    induction n with
    | zero => intro σ _; exact ⟨[], σ, rfl, rfl, rfl⟩
    | succ n ih =>
      intro σ hn
      have hlt : (σ 0).lus < (σ 0).bits.length := by omega
      obtain ⟨o, σ', e, hb, hl⟩ := ih (maj σ 0 ⟨(σ 0).bits, (σ 0).lus + 1⟩) (by simp [maj]; omega)
      refine ⟨.bit (σ 0).bits[(σ 0).lus] :: o, σ', ?_, ?_, ?_⟩
      · simp only [List.replicate_succ, Spec.run, Spec.step, List.getElem?_eq_getElem hlt, Option.map_some, e]
      · simpa [maj] using hb
      · simp [maj] at hl; omega
  obtain ⟨o1, σ1, e1, b1, l1⟩ := pushes a Spec.init
  have e2 : Spec.run σ1 [Op.pushU32 0 w] = some (maj σ1 0 ⟨(σ1 0).bits ++ chiffres w, (σ1 0).lus⟩, [.rien]) := rfl
  obtain ⟨o3, σ3, e3, b3, l3⟩ := pushes b (maj σ1 0 ⟨(σ1 0).bits ++ chiffres w, (σ1 0).lus⟩)
  have hchl : (chiffres w).length = 32 := by simp [chiffres]
  have hbits : (σ3 0).bits = a ++ chiffres w ++ b := by
    rw [b3]; simp [maj, b1, Spec.init]
  have hlus : (σ3 0).lus = 0 := by rw [l3]; simp [maj, l1, Spec.init]
  obtain ⟨o4, σ4, e4, b4, l4⟩ := pops a.length σ3 (by rw [hbits, hlus]; simp)
  have e5 : Spec.run σ4 [Op.popU32 0] =
      some (maj σ4 0 ⟨(σ4 0).bits, (σ4 0).lus + 32⟩, [.nb (valeur (((σ4 0).bits.drop (σ4 0).lus).take 32))]) := by
    have : (σ4 0).lus + 32 ≤ (σ4 0).bits.length := by
      rw [b4, l4, hbits, hlus]; simp [hchl]
    simp only [Spec.run, Spec.step, this, if_true]
  have := runApp _ _ _ _ _ _ _ (runApp _ _ _ _ _ _ _ (runApp _ _ _ _ _ _ _ (runApp _ _ _ _ _ _ _ e1 e2) e3) e4) e5
  obtain ⟨τ, f, _⟩ := run_sim sim_init _ this
  refine ⟨τ, _, f, ?_⟩
  rw [List.getLast?_append]
  simp only [List.getLast?_singleton, Option.some_or, Option.some.injEq, Out.nb.injEq]
  rw [b4, l4, hbits, hlus, ← valeur_chiffres w]
  congr 1
  rw [Nat.zero_add, List.append_assoc, List.drop_left, ← hchl, List.take_left]

example : ∃ s l, Atteint s l ∧ l.length = 38 := by
  exact ⟨_, _, ⟨exempleHist, _, _, _, 1, rfl, rfl, rfl, rfl⟩, rfl⟩

/-! ## C03 -/

/-- **C03 (reads).** On a reachable stream `operator[]` fails exactly from the first bit after the last
allocated byte; below it returns, and below `lon()` it returns the stream's bit. -/
theorem C03_lecture_bornee (s : BS) (l : List Bool) (h : Atteint s l) (i : Nat) :
    (get s i = .error .lecture ↔ 8 * ((l.length + 7) / 8) ≤ i) ∧
    (i < 8 * ((l.length + 7) / 8) → ∃ b, get s i = .ok b) ∧
    (∀ hi : i < l.length, get s i = .ok l[i]) := by
  have hr := atteint_repr h
  refine ⟨?_, ?_, hr.bit i⟩
  · rw [get_error_iff, hr.len]; omega
  · intro hi; exact ⟨_, get_ok s i (by rw [hr.len]; omega)⟩

/-- **C03 (writes).** `set` fails exactly from the first bit after the last allocated byte; otherwise it changes the
designated bit and no other one, and neither the length nor the reading position. -/
theorem C03_ecriture_bornee (s : BS) (l : List Bool) (h : Atteint s l) (i : Nat) (b : Bool) :
    (set s i b = .error .ecriture ↔ 8 * ((l.length + 7) / 8) ≤ i) ∧
    (i < 8 * ((l.length + 7) / 8) → ∃ s', set s i b = .ok s' ∧ lon s' = lon s ∧ s'.pos = s.pos ∧
        get s' i = .ok b ∧ ∀ j, j ≠ i → get s' j = get s j) := by
  have hr := atteint_repr h
  constructor
  · constructor
    · intro he
      by_cases hi : i / 8 < s.buffer.length
      · obtain ⟨s', e, _⟩ := set_spec s i b hi
        rw [he] at e; cases e
      · rw [hr.len] at hi; omega
    · intro hi; exact set_oob s i b (by rw [hr.len]; omega)
  · intro hi
    obtain ⟨s', e, n1, p1, _, g⟩ := set_spec s i b (by rw [hr.len]; omega)
    exact ⟨s', e, n1, p1, by rw [g, if_pos rfl], fun j hj => by rw [g, if_neg hj]⟩

/-! ## C04 -/

/-- **C04 is violated**: two streams of different lengths compare equal ("1" and "10"). -/
theorem C04_refute_longueur :
    ∃ s t, AtteintSansTronc s [true] ∧ AtteintSansTronc t [true, false] ∧ egal s t = true := by
  refine ⟨_, _, ⟨[.push 0 true], _, _, _, 0, rfl, rfl, rfl, rfl, rfl⟩,
    ⟨[.push 0 true, .push 0 false], _, _, _, 0, rfl, rfl, rfl, rfl, rfl⟩, ?_⟩
  decide

/-- **C04 is violated** (other direction): after a truncating `resize`, two streams with the same bits compare
different. -/
theorem C04_refute_troncature :
    ∃ s t, Atteint s [true] ∧ Atteint t [true] ∧ egal s t = false := by
  refine ⟨_, _, ⟨[.push 0 true, .push 0 true, .tronque 0 1], _, _, _, 0, rfl, rfl, rfl, rfl⟩,
    ⟨[.push 0 true], _, _, _, 0, rfl, rfl, rfl, rfl⟩, ?_⟩
  decide

/-- **C04 (what does hold).** Without truncation, `==` decides equality of the bit sequences completed by zeros to
whole bytes. -/
theorem C04_egalite_octets_partial (s t : BS) (l m : List Bool)
    (hs : AtteintSansTronc s l) (ht : AtteintSansTronc t m) :
    egal s t = true ↔
      l ++ List.replicate (manque l.length 8) false = m ++ List.replicate (manque m.length 8) false := by
  obtain ⟨rs, ks⟩ := atteintST_slack hs
  obtain ⟨rt, kt⟩ := atteintST_slack ht
  have full : ∀ s l, (hr : Repr s l) → Slack s → ∀ i (hi : i / 8 < s.buffer.length),
      get s i = .ok ((l ++ List.replicate (manque l.length 8) false)[i]'(by
        have := hr.len; simp [manque]; omega)) := by
    intro s l hr hk i hi
    by_cases hl : i < l.length
    · rw [List.getElem_append_left hl]; exact hr.bit i hl
    · rw [List.getElem_append_right (by omega)]
      simp only [List.getElem_replicate]
      exact hk i (by rw [hr.nb]; omega) hi
  have len : ∀ l : List Bool, (l ++ List.replicate (manque l.length 8) false).length = 8 * ((l.length + 7) / 8) := by
    intro l; simp [manque]; omega
  rw [egal_iff]
  constructor
  · rintro ⟨hl, hb⟩
    apply List.ext_getElem
    · rw [len, len, ← rs.len, ← rt.len, hl]
    · intro i h1 h2
      rw [len] at h1 h2
      have a := full s l rs ks i (by rw [rs.len]; omega)
      have b := full t m rt kt i (by rw [rt.len]; omega)
      have c := hb i (by rw [rs.len]; omega)
      rw [a, b] at c
      simpa using c
  · intro he
    have hl : s.buffer.length = t.buffer.length := by
      have := congrArg List.length he
      rw [len, len] at this
      rw [rs.len, rt.len]; omega
    refine ⟨hl, fun i hi => ?_⟩
    rw [full s l rs ks i hi, full t m rt kt i (by omega)]
    simp only [he]

/-- **C04 (equal lengths).** Without truncation, streams of the same length are `==` exactly when their bits agree. -/
theorem C04_egalite_meme_longueur_partial (s t : BS) (l m : List Bool)
    (hs : AtteintSansTronc s l) (ht : AtteintSansTronc t m) (hl : lon s = lon t) :
    egal s t = true ↔ l = m := by
  rw [C04_egalite_octets_partial s t l m hs ht]
  obtain ⟨rs, _⟩ := atteintST_slack hs
  obtain ⟨rt, _⟩ := atteintST_slack ht
  have e : l.length = m.length := by
    have := rs.nb; have := rt.nb; simp only [lon] at hl; omega
  constructor
  · intro h; exact (List.append_inj h e).1
  · intro h; rw [h]

example : ∃ s t l m, AtteintSansTronc s l ∧ AtteintSansTronc t m ∧ lon s = lon t ∧ l.length = 3 := by
  refine ⟨_, _, _, _, ⟨[.push 0 true, .pad 0 2], _, _, _, 0, rfl, rfl, rfl, rfl, rfl⟩,
    ⟨[.push 0 true, .push 0 false, .push 0 true], _, _, _, 0, rfl, rfl, rfl, rfl, rfl⟩, ?_, ?_⟩ <;> decide

/-! ## C05 -/

/-- **C05.** `zéros(n)`, `uns(n)` and `BitStream(n)` have exactly `n` bits with the documented value. -/
theorem C05_constantes (n : Nat) :
    (∃ s, zeros n = .ok s ∧ lon s = n ∧ ∀ i < n, get s i = .ok false) ∧
    (∃ s, uns n = .ok s ∧ lon s = n ∧ ∀ i < n, get s i = .ok true) ∧
    (lon (ofLon n) = n ∧ ∀ i < n, get (ofLon n) i = .ok false) := by
  refine ⟨?_, ?_, rfl, ?_⟩
  · obtain ⟨s, e, r, _⟩ := pushN_spec vide [] false n vide_repr
    refine ⟨s, e, by simpa [lon] using r.nb, fun i hi => ?_⟩
    have := r.bit i (by simpa using hi)
    simpa using this
  · obtain ⟨s, e, r, _⟩ := pushN_spec vide [] true n vide_repr
    refine ⟨s, e, by simpa [lon] using r.nb, fun i hi => ?_⟩
    have := r.bit i (by simpa using hi)
    simpa using this
  · intro i hi
    simp only [ofLon, resize, vide]
    rw [get_resizeVec _ _ _ _ 0 0 _ (by omega)]
    simp

/-- What a user expects of an alternating stream of `n` bits. -/
def alterne (n : Nat) : List Bool := (List.range n).map (fun i => i % 2 == 0)

private theorem alterne_replicate (k : Nat) :
    (List.replicate k [true, false]).flatten = alterne (2 * k) := by
  induction k with
  | zero => rfl
  | succ k ih =>
    rw [List.replicate_succ', List.flatten_append, ih]
    simp only [alterne, show 2 * (k + 1) = 2 * k + 1 + 1 by omega, List.range_succ, List.map_append]
    simp

/-- **C05 (altern).** `altern(n)` does alternate starting with 1, but returns `n + 2` bits for every `n`. -/
theorem C05_altern_longueur (n : Nat) :
    ∃ s, altern n = .ok s ∧ lon s = n + 2 ∧
      ∀ i (hi : i < n + 2), get s i = .ok ((alterne (n + 2))[i]'(by simpa [alterne] using hi)) := by
  have key : ∃ s, altern n = .ok s ∧ Repr s (alterne (n + 2)) := by
    obtain ⟨s, e, r⟩ := alternBoucle_spec vide [] 0 n vide_repr
    rw [List.nil_append, alterne_replicate] at r
    unfold altern
    simp only [e, bind, Except.bind]
    have h1 : n &&& 1 = n % 2 := Nat.and_two_pow_sub_one_eq_mod n 1
    by_cases hn : n % 2 = 0
    · rw [if_neg (by omega)]
      refine ⟨s, rfl, ?_⟩
      have : 2 * ((n + 2 - 0) / 2) = n + 2 := by omega
      rwa [this] at r
    · rw [if_pos (by omega)]
      obtain ⟨s', e', r', _⟩ := push_spec s _ true r
      refine ⟨s', e', ?_⟩
      have : 2 * ((n + 2 - 0) / 2) = n + 1 := by omega
      rw [this] at r'
      have h2 : alterne (n + 2) = alterne (n + 1) ++ [true] := by
        simp only [alterne, List.range_succ (n := n + 1), List.map_append, List.map_cons, List.map_nil]
        congr 1
        simp; omega
      rw [h2]; exact r'
  obtain ⟨s, e, r⟩ := key
  refine ⟨s, e, by simpa [alterne, lon] using r.nb, fun i hi => r.bit i (by simpa [alterne] using hi)⟩

/-- **C05 is violated** by `altern`: no requested length is ever honoured. -/
theorem C05_altern_refute (n : Nat) : ¬ ∃ s, altern n = .ok s ∧ lon s = n := by
  obtain ⟨s, e, h, _⟩ := C05_altern_longueur n
  rintro ⟨s', e', h'⟩
  rw [e] at e'
  simp only [Except.ok.injEq] at e'
  subst e'; omega

/-- The documentation of `resize` ("remet à zéro tous les bits") is violated as well: old bits survive. -/
theorem C05_resize_refute :
    ∃ s, Atteint s [true] ∧ get (resize s 8) 0 = .ok true := by
  exact ⟨_, ⟨[.push 0 true], _, _, _, 0, rfl, rfl, rfl, rfl⟩, rfl⟩

/-! ## C06 -/

/-- **C06 (value).** The Hamming distance fails exactly on different lengths, and is otherwise the number of indices
at which the two streams differ. -/
theorem C06_hamming_valeur (s t : BS) (l m : List Bool) (hs : Atteint s l) (ht : Atteint t m) :
    (l.length ≠ m.length → dstHamming s t = .error .hamming) ∧
    (l.length = m.length → dstHamming s t =
      .ok ((List.range l.length).countP (fun i => l[i]? != m[i]?))) := by
  have rs := atteint_repr hs
  have rt := atteint_repr ht
  constructor
  · intro h
    unfold dstHamming
    rw [if_pos (by simp only [lon, rs.nb, rt.nb]; omega)]
  · intro h
    unfold dstHamming
    rw [if_neg (by simp only [lon, rs.nb, rt.nb]; omega)]
    rw [hammingBoucle_spec s t l m rs rt h (lon s) 0 0 (by simp [lon, rs.nb])]
    congr 1
    simp only [List.drop_zero, Nat.zero_add]
    clear hs ht rs rt
    induction l generalizing m with
    | nil => simp
    | cons a l ih =>
      cases m with
      | nil => simp at h
      | cons b m =>
        simp only [List.zip_cons_cons, List.countP_cons, List.length_cons]
        rw [List.range_succ_eq_map, List.countP_cons, List.countP_map]
        rw [ih m (by simpa using h)]
        congr 1

private theorem hammingL_tri (l m n : List Bool) (k : Nat) :
    (List.range k).countP (fun i => l[i]? != n[i]?) ≤
      (List.range k).countP (fun i => l[i]? != m[i]?) + (List.range k).countP (fun i => m[i]? != n[i]?) := by
  induction k with
  | zero => simp
  | succ k ih =>
    simp only [List.range_succ, List.countP_append, List.countP_cons, List.countP_nil]
    by_cases a : l[k]? = m[k]? <;> by_cases b : m[k]? = n[k]?
    · simp [a, b]; omega
    · simp only [a, bne_self_eq_false]; split <;> simp <;> omega
    · simp only [b, bne_self_eq_false]; split <;> simp <;> omega
    · simp [a, b]; split <;> omega

/-- **C06 (metric).** Symmetry, separation and triangle inequality on any three reachable streams of one length. -/
theorem C06_hamming_metrique (s t u : BS) (l m n : List Bool) (hs : Atteint s l) (ht : Atteint t m)
    (hu : Atteint u n) (h1 : l.length = m.length) (h2 : m.length = n.length) :
    ∃ dst dtu dsu : Nat, dstHamming s t = .ok dst ∧ dstHamming t s = .ok dst ∧ dstHamming t u = .ok dtu ∧
      dstHamming s u = .ok dsu ∧ (dst = 0 ↔ l = m) ∧ dsu ≤ dst + dtu := by
  refine ⟨_, _, _, (C06_hamming_valeur s t l m hs ht).2 h1, ?_, (C06_hamming_valeur t u m n ht hu).2 h2,
    (C06_hamming_valeur s u l n hs hu).2 (by omega), ?_, ?_⟩
  · rw [(C06_hamming_valeur t s m l ht hs).2 h1.symm, h1]
    congr 2
    funext i
    rw [bne_comm]
  · constructor
    · intro h
      rw [List.countP_eq_zero] at h
      apply List.ext_getElem? 
      intro i
      by_cases hi : i < l.length
      · have := h i (by simpa using hi)
        simpa using this
      · rw [List.getElem?_eq_none (by omega), List.getElem?_eq_none (by omega)]
    · intro h
      subst h
      rw [List.countP_eq_zero]
      simp
  · rw [← h1]
    exact hammingL_tri l m n _

example : ∃ s t u l m n, Atteint s l ∧ Atteint t m ∧ Atteint u n ∧ l.length = m.length ∧ m.length = n.length ∧
    l.length = 2 ∧ l ≠ m ∧ m ≠ n := by
  refine ⟨_, _, _, _, _, _, ⟨[.push 0 true, .pad 0 1], _, _, _, 0, rfl, rfl, rfl, rfl⟩,
    ⟨[.push 0 true, .push 0 true], _, _, _, 0, rfl, rfl, rfl, rfl⟩,
    ⟨[.pad 0 2], _, _, _, 0, rfl, rfl, rfl, rfl⟩, ?_, ?_, ?_, ?_, ?_⟩ <;> decide

/-! ## C41: conversions from and to strings and vectors -/

/-- **C41 (string).** The string constructor accepts exactly the strings of '0' and '1', and gives their bits. -/
theorem C41_chaine (cs : List Char) :
    ((∀ c ∈ cs, c = '0' ∨ c = '1') → ∃ s, ofChaine cs = .ok s ∧ lon s = cs.length ∧
      ∀ i (hi : i < cs.length), get s i = .ok (cs[i] == '1')) ∧
    ((∃ c ∈ cs, c ≠ '0' ∧ c ≠ '1') → ofChaine cs = .error .chaine) := by
  constructor
  · intro h
    obtain ⟨s, e, r, _⟩ := ofChaineBoucle_spec vide [] vide_repr cs h
    refine ⟨s, e, by simpa [lon] using r.nb, fun i hi => ?_⟩
    have := r.bit i (by simpa using hi)
    simpa using this
  · exact ofChaineBoucle_err vide [] vide_repr cs

/-- **C41 (vector).** Converting a stream to a vector of 0/1 and back restores every bit and the length; and the vector
has the bits in order. -/
theorem C41_vecteur (s : BS) (l : List Bool) (h : Atteint s l) :
    ∃ x s', iarray s = .ok x ∧ x = l.map (fun b => if b then 1 else 0) ∧
      ofVec x = .ok s' ∧ lon s' = lon s ∧ ∀ i < lon s, get s' i = get s i := by
  have hr := atteint_repr h
  have e := iarrayBoucle_spec s l hr (lon s) 0 (by simp [lon, hr.nb])
  obtain ⟨s', e', r'⟩ := ofVecBoucle_spec vide [] vide_repr (l.map (fun b => if b then (1 : Int) else 0))
  have hm : ([] ++ (l.map (fun b => if b then (1 : Int) else 0)).map (fun v => v != 0)) = l := by
    simp only [List.nil_append, List.map_map]
    conv => rhs; rw [← List.map_id l]
    apply List.map_congr_left
    intro b _
    cases b <;> rfl
  rw [hm] at r'
  refine ⟨_, s', e, by simp, ?_, by simp [lon, r'.nb, hr.nb], fun i hi => ?_⟩
  · simpa [ofVec] using e'
  · have hi' : i < l.length := by simpa [lon, hr.nb] using hi
    rw [r'.bit i hi', hr.bit i hi']

end Verif.BitStream
