import Verif.BitStream.Model
/-! Helper lemmas for the `BitStream` model (not claims). -/
namespace Verif.BitStream

/-- `s` represents the bit list `l`. -/
structure Repr (s : BS) (l : List Bool) : Prop where
  nb  : s.nbits = l.length
  len : s.buffer.length = (l.length + 7) / 8
  bit : ∀ i (h : i < l.length), get s i = .ok l[i]

/-- bits of the last byte beyond the length are zero -/
def Slack (s : BS) : Prop := ∀ i, s.nbits ≤ i → i / 8 < s.buffer.length → get s i = .ok false

theorem octet_or_get (o : Octet) (k j : Nat) (hk : k < 8) (hj : j < 8) :
    (((o ||| (1#8 <<< k)) &&& (1#8 <<< j)) != 0#8) = (if j = k then true else ((o &&& (1#8 <<< j)) != 0#8)) := by
  revert o
  have : ∀ k < 8, ∀ j < 8, ∀ o : Octet, (((o ||| (1#8 <<< k)) &&& (1#8 <<< j)) != 0#8)
      = (if j = k then true else ((o &&& (1#8 <<< j)) != 0#8)) := by decide +kernel
  exact this k hk j hj

theorem octet_and_get (o : Octet) (k j : Nat) (hk : k < 8) (hj : j < 8) :
    (((o &&& ~~~(1#8 <<< k)) &&& (1#8 <<< j)) != 0#8) = (if j = k then false else ((o &&& (1#8 <<< j)) != 0#8)) := by
  revert o
  have : ∀ k < 8, ∀ j < 8, ∀ o : Octet, (((o &&& ~~~(1#8 <<< k)) &&& (1#8 <<< j)) != 0#8)
      = (if j = k then false else ((o &&& (1#8 <<< j)) != 0#8)) := by decide +kernel
  exact this k hk j hj

theorem octet_ext (o o' : Octet) (h : ∀ j < 8, ((o &&& (1#8 <<< j)) != 0#8) = ((o' &&& (1#8 <<< j)) != 0#8)) :
    o = o' := by
  have : ∀ o : Octet, ∀ j < 8, ((o &&& (1#8 <<< j)) != 0#8) = o.getLsbD j := by decide +kernel
  apply BitVec.eq_of_getLsbD_eq
  intro j hj
  rw [← this o j hj, ← this o' j hj, h j hj]

theorem and7 (i : Nat) : i &&& 7 = i % 8 := Nat.and_two_pow_sub_one_eq_mod i 3

theorem get_error_iff (s : BS) (i : Nat) : get s i = .error .lecture ↔ s.buffer.length ≤ i / 8 := by
  unfold get
  simp only
  split <;> rename_i h
  · simp at h; simp; omega
  · have := (List.getElem?_eq_some_iff.1 h).1
    simp; omega

theorem get_ok (s : BS) (i : Nat) (h : i / 8 < s.buffer.length) :
    get s i = .ok ((s.buffer[i/8] &&& (1#8 <<< (i % 8))) != 0#8) := by
  unfold get
  simp only [and7]
  rw [List.getElem?_eq_getElem h]

theorem get_oob (s : BS) (i : Nat) (h : s.buffer.length ≤ i / 8) : get s i = .error .lecture :=
  (get_error_iff s i).2 h

theorem set_oob (s : BS) (i : Nat) (v : Bool) (h : s.buffer.length ≤ i / 8) : set s i v = .error .ecriture := by
  unfold set
  simp only
  rw [List.getElem?_eq_none h]

theorem set_spec (s : BS) (i : Nat) (v : Bool) (h : i / 8 < s.buffer.length) :
    ∃ s', set s i v = .ok s' ∧ s'.nbits = s.nbits ∧ s'.pos = s.pos ∧ s'.buffer.length = s.buffer.length ∧
      ∀ j, get s' j = if j = i then .ok v else get s j := by
  unfold set
  simp only [and7]
  rw [List.getElem?_eq_getElem h]
  refine ⟨_, rfl, rfl, rfl, by simp, ?_⟩
  intro j
  by_cases hj : j / 8 < s.buffer.length
  · rw [get_ok _ _ (by simpa using hj)]
    simp only [List.getElem_set]
    by_cases hji : i / 8 = j / 8
    · simp only [hji, if_true]
      have hk : i % 8 < 8 := Nat.mod_lt _ (by omega)
      have hj8 : j % 8 < 8 := Nat.mod_lt _ (by omega)
      have e : (j % 8 = i % 8) ↔ (j = i) := by constructor <;> intro h' <;> omega
      cases v
      · simp only [Bool.false_eq_true, if_false]
        rw [octet_and_get _ _ _ hk hj8]
        by_cases hh : j = i
        · simp [hh]
        · have : ¬ (j % 8 = i % 8) := fun h' => hh (e.1 h')
          simp only [this, hh, if_false]
          rw [get_ok _ _ hj]
      · simp only [if_true]
        rw [octet_or_get _ _ _ hk hj8]
        by_cases hh : j = i
        · simp [hh]
        · have : ¬ (j % 8 = i % 8) := fun h' => hh (e.1 h')
          simp only [this, hh, if_false]
          rw [get_ok _ _ hj]
    · have : ¬ j = i := by intro h'; subst h'; exact hji rfl
      simp only [hji, this, if_false]
      rw [get_ok _ _ hj]
  · have : ¬ j = i := by intro h'; subst h'; exact hj h
    simp only [this, if_false]
    rw [get_oob _ _ (by simpa using hj), get_oob _ _ (by simpa using hj)]

theorem resizeVec_length (l : List Octet) (n : Nat) : (resizeVec l n).length = n := by
  simp [resizeVec]; omega

theorem get_resizeVec (l : List Octet) (n p q p' q' : Nat) (i : Nat) (h : i / 8 < n) :
    get ⟨resizeVec l n, p, q⟩ i = if i / 8 < l.length then get ⟨l, p', q'⟩ i else .ok false := by
  rw [get_ok _ _ (by simpa [resizeVec_length] using h)]
  by_cases hl : i / 8 < l.length
  · rw [if_pos hl, get_ok _ _ hl]
    simp only [resizeVec]
    rw [List.getElem_append_left (by simp; omega)]
    simp
  · rw [if_neg hl]
    simp only [resizeVec]
    rw [List.getElem_append_right (by simp; omega)]
    simp

theorem get_mk (s : BS) (i p q : Nat) : get ⟨s.buffer, p, q⟩ i = get s i := rfl

theorem vide_repr : Repr vide [] := ⟨rfl, rfl, by intro i h; simp at h⟩
theorem vide_slack : Slack vide := by intro i _ h; simp [vide] at h

theorem push_spec (s : BS) (l : List Bool) (b : Bool) (h : Repr s l) :
    ∃ s', push s b = .ok s' ∧ Repr s' (l ++ [b]) ∧ s'.pos = s.pos ∧ (Slack s → Slack s') := by
  obtain ⟨nb, len, bit⟩ := h
  unfold push
  simp only [Nat.add_sub_cancel]
  by_cases hg : s.nbits + 1 > 8 * s.buffer.length
  · rw [if_pos hg]
    have hl : s.nbits / 8 < (resizeVec s.buffer ((s.nbits + 1 + 7) / 8)).length := by
      rw [resizeVec_length]; omega
    obtain ⟨s', e, e1, e2, e3, e4⟩ := set_spec
      ⟨resizeVec s.buffer ((s.nbits + 1 + 7) / 8), s.pos, s.nbits + 1⟩ s.nbits b hl
    refine ⟨s', e, ⟨?_, ?_, ?_⟩, e2, ?_⟩
    · simp at e1 ⊢; omega
    · rw [e3]; simp only [resizeVec_length]; simp; omega
    · intro i hi
      rw [e4]
      simp at hi
      by_cases hi' : i = s.nbits
      · subst hi'; simp [nb]
      · have hi2 : i < l.length := by omega
        rw [if_neg hi', get_resizeVec _ _ _ _ s.pos s.nbits _ (by omega), if_pos (by omega)]
        rw [List.getElem_append_left hi2]
        exact bit i hi2
    · intro hs i hi hi2
      rw [e4]
      simp at e1
      rw [e3] at hi2
      simp only [resizeVec_length] at hi2
      rw [if_neg (by omega), get_resizeVec _ _ _ _ s.pos s.nbits _ hi2]
      split
      · rename_i h3; exact hs i (by omega) h3
      · rfl
  · rw [if_neg hg]
    have hl : s.nbits / 8 < s.buffer.length := by omega
    obtain ⟨s', e, e1, e2, e3, e4⟩ := set_spec ⟨s.buffer, s.pos, s.nbits + 1⟩ s.nbits b hl
    refine ⟨s', e, ⟨?_, ?_, ?_⟩, e2, ?_⟩
    · simp at e1 ⊢; omega
    · rw [e3]; simp; omega
    · intro i hi
      rw [e4]
      simp at hi
      by_cases hi' : i = s.nbits
      · subst hi'; simp [nb]
      · have hi2 : i < l.length := by omega
        rw [if_neg hi', List.getElem_append_left hi2]
        exact bit i hi2
    · intro hs i hi hi2
      rw [e4]
      simp at e1
      rw [e3] at hi2
      rw [if_neg (by omega)]
      exact hs i (by omega) hi2

theorem pushN_spec (s : BS) (l : List Bool) (b : Bool) (n : Nat) (h : Repr s l) :
    ∃ s', pushN s b n = .ok s' ∧ Repr s' (l ++ List.replicate n b) ∧ s'.pos = s.pos ∧ (Slack s → Slack s') := by
  induction n generalizing s l with
  | zero => exact ⟨s, rfl, by simpa using h, rfl, id⟩
  | succ n ih =>
    obtain ⟨s1, e1, r1, p1, k1⟩ := push_spec s l b h
    obtain ⟨s2, e2, r2, p2, k2⟩ := ih s1 _ r1
    refine ⟨s2, ?_, ?_, by rw [p2, p1], fun hs => k2 (k1 hs)⟩
    · simp only [pushN, e1]; exact e2
    · rw [List.replicate_succ]; simpa using r2

theorem pushFrom_spec (res t : BS) (lr lt : List Bool) (hr : Repr res lr) (ht : Repr t lt) (n i : Nat)
    (hi : i + n = lt.length) :
    ∃ s', pushFrom res t i n = .ok s' ∧ Repr s' (lr ++ lt.drop i) ∧ s'.pos = res.pos ∧ (Slack res → Slack s') := by
  induction n generalizing res lr i with
  | zero =>
    refine ⟨res, rfl, ?_, rfl, id⟩
    rw [List.drop_eq_nil_of_le (by omega)]; simpa using hr
  | succ n ih =>
    have hil : i < lt.length := by omega
    obtain ⟨s1, e1, r1, p1, k1⟩ := push_spec res lr lt[i] hr
    obtain ⟨s2, e2, r2, p2, k2⟩ := ih s1 _ r1 (i + 1) (by omega)
    refine ⟨s2, ?_, ?_, by rw [p2, p1], fun hs => k2 (k1 hs)⟩
    · simp only [pushFrom, ht.bit i hil]
      simp only [bind, Except.bind, e1]
      exact e2
    · rw [List.drop_eq_getElem_cons hil]; simpa using r2

theorem add_spec (s t : BS) (ls lt : List Bool) (hs : Repr s ls) (ht : Repr t lt) :
    ∃ r, add s t = .ok r ∧ Repr r (ls ++ lt) ∧ r.pos = 0 ∧ Slack r := by
  obtain ⟨s1, e1, r1, p1, k1⟩ := pushFrom_spec vide s [] ls vide_repr hs ls.length 0 (by omega)
  obtain ⟨s2, e2, r2, p2, k2⟩ := pushFrom_spec s1 t _ lt r1 ht lt.length 0 (by omega)
  refine ⟨s2, ?_, by simpa using r2, by rw [p2, p1]; rfl, k2 (k1 vide_slack)⟩
  simp only [add, lon, hs.nb, ht.nb, e1, bind, Except.bind]
  exact e2

/-- the 32 bits of a word, least significant first -/
def bits32 (i : BitVec 32) (j n : Nat) : List Bool := (List.range' j n).map i.getLsbD

theorem and_shift_get (i : BitVec 32) (j : Nat) (hj : j < 32) :
    ((i &&& (1#32 <<< j)) != 0#32) = i.getLsbD j := by
  have h : (1#32 <<< j) = BitVec.twoPow 32 j := rfl
  rw [h, BitVec.and_twoPow]
  cases hb : i.getLsbD j
  · simp
  · simp only [if_true]
    have : BitVec.twoPow 32 j ≠ 0#32 := by
      intro h'
      have := congrArg (fun v => v.getLsbD j) h'
      simp [hj] at this
    simpa using this

theorem pushU32Boucle_spec (s : BS) (l : List Bool) (i : BitVec 32) (k j : Nat) (hj : j + k = 32) (h : Repr s l) :
    ∃ s', pushU32Boucle s i j k = .ok s' ∧ Repr s' (l ++ bits32 i j k) ∧ s'.pos = s.pos ∧ (Slack s → Slack s') := by
  induction k generalizing s l j with
  | zero => exact ⟨s, rfl, by simpa [bits32] using h, rfl, id⟩
  | succ k ih =>
    obtain ⟨s1, e1, r1, p1, k1⟩ := push_spec s l (i.getLsbD j) h
    obtain ⟨s2, e2, r2, p2, k2⟩ := ih s1 _ (j + 1) (by omega) r1
    refine ⟨s2, ?_, ?_, by rw [p2, p1], fun hs => k2 (k1 hs)⟩
    · simp only [pushU32Boucle, and_shift_get i j (by omega), e1, bind, Except.bind]
      exact e2
    · simpa [bits32, List.range'_succ] using r2

theorem pop_spec (s : BS) (l : List Bool) (h : Repr s l) (hp : s.pos < l.length) :
    pop s = .ok (l[s.pos], { s with pos := s.pos + 1 }) := by
  simp only [pop, h.bit _ hp, bind, Except.bind]

theorem repr_pos (s : BS) (l : List Bool) (p : Nat) (h : Repr s l) : Repr { s with pos := p } l :=
  ⟨h.nb, h.len, h.bit⟩

theorem popU32Boucle_spec (s : BS) (l : List Bool) (h : Repr s l) (k j : Nat) (res : BitVec 32) (hj : j + k = 32)
    (hp : s.pos + k ≤ l.length) (hres : ∀ m, j ≤ m → res.getLsbD m = false) :
    ∃ w, popU32Boucle s res j k = .ok (w, { s with pos := s.pos + k }) ∧
      (∀ m, m < j → w.getLsbD m = res.getLsbD m) ∧
      ∀ m, (hm : m < k) → w.getLsbD (j + m) = l[s.pos + m] := by
  induction k generalizing s j res with
  | zero => exact ⟨res, rfl, fun _ _ => rfl, fun m hm => by omega⟩
  | succ k ih =>
    have hlt : s.pos < l.length := by omega
    simp only [popU32Boucle, pop_spec s l h hlt, bind, Except.bind]
    have hbit : ∀ m, ((res ||| (((if l[s.pos] = true then 1#32 else 0#32) &&& 1#32) <<< j))).getLsbD m
        = (if m = j then l[s.pos] else res.getLsbD m) := by
      intro m
      have h1 : ((if l[s.pos] = true then 1#32 else 0#32) &&& 1#32) <<< j
          = if l[s.pos] = true then BitVec.twoPow 32 j else 0#32 := by
        split
        · show (1#32 &&& 1#32) <<< j = 1#32 <<< j
          rfl
        · simp
      rw [h1]
      by_cases hm : m = j
      · subst hm
        have := hres m (Nat.le_refl _)
        cases hb : l[s.pos] <;> simp [this]; omega
      · cases hb : l[s.pos] <;> simp [hm]
        intro _; omega
    obtain ⟨w, e, w1, w2⟩ := ih { s with pos := s.pos + 1 } (repr_pos s l _ h) (j + 1)
      (res ||| (((if l[s.pos] = true then 1#32 else 0#32) &&& 1#32) <<< j)) (by omega) (by simp; omega)
      (by intro m hm; rw [hbit, if_neg (by omega)]; exact hres m (by omega))
    refine ⟨w, ?_, ?_, ?_⟩
    · rw [e]; simp; omega
    · intro m hm
      rw [w1 m (by omega), hbit, if_neg (by omega)]
    · intro m hm
      rcases m with _ | m
      · have := w1 j (by omega)
        rw [hbit, if_pos rfl] at this
        simpa using this
      · have := w2 m (by omega)
        simp only [Nat.add_assoc, Nat.add_comm 1] at this
        simpa [Nat.add_assoc, Nat.add_comm, Nat.add_left_comm] using this

theorem resize_trunc_spec (s : BS) (l : List Bool) (n : Nat) (h : Repr s l) (hn : n ≤ l.length) :
    Repr (resize s n) (l.take n) ∧ (resize s n).pos = 0 := by
  refine ⟨⟨by simp [resize, hn], by simp only [resize, resizeVec_length]; simp; omega, ?_⟩, rfl⟩
  intro i hi
  simp at hi
  simp only [resize]
  rw [get_resizeVec _ _ _ _ s.pos s.nbits _ (by omega), if_pos (by rw [h.len]; omega)]
  rw [List.getElem_take]
  exact h.bit i (by omega)

theorem padMult_spec (s : BS) (l : List Bool) (m : Nat) (hm : 0 < m) (h : Repr s l) :
    ∃ s', padMult s m = .ok s' ∧ Repr s' (l ++ List.replicate ((m - l.length % m) % m) false) ∧
      s'.pos = s.pos ∧ (Slack s → Slack s') := by
  have hlt := Nat.mod_lt l.length hm
  unfold padMult
  rw [if_neg (by omega)]
  simp only [lon, h.nb]
  by_cases hr : l.length % m = 0
  · rw [if_neg (by omega)]
    refine ⟨s, rfl, ?_, rfl, id⟩
    simpa [hr] using h
  · rw [if_pos hr]
    obtain ⟨s', e, r, p, k⟩ := pushN_spec s l false (m - l.length % m) h
    refine ⟨s', e, ?_, p, k⟩
    rwa [Nat.mod_eq_of_lt (by omega)]

theorem alternBoucle_spec (r : BS) (l : List Bool) (i n : Nat) (h : Repr r l) :
    ∃ s', alternBoucle r i n = .ok s' ∧
      Repr s' (l ++ (List.replicate ((n + 2 - i) / 2) [true, false]).flatten) := by
  by_cases hi : i < n + 1
  · unfold alternBoucle
    rw [if_pos hi]
    obtain ⟨s1, e1, r1, _⟩ := push_spec r l true h
    obtain ⟨s2, e2, r2, _⟩ := push_spec s1 _ false r1
    obtain ⟨s3, e3, r3⟩ := alternBoucle_spec s2 _ (i + 2) n r2
    refine ⟨s3, ?_, ?_⟩
    · simp only [e1, e2, bind, Except.bind]; exact e3
    · have : (n + 2 - i) / 2 = (n + 2 - (i + 2)) / 2 + 1 := by omega
      rw [this, List.replicate_succ]
      simpa using r3
  · unfold alternBoucle
    rw [if_neg hi]
    refine ⟨r, rfl, ?_⟩
    have : (n + 2 - i) / 2 = 0 := by omega
    simpa [this] using h
termination_by n + 1 - i

theorem hammingBoucle_spec (s t : BS) (ls lt : List Bool) (hs : Repr s ls) (ht : Repr t lt)
    (hl : ls.length = lt.length) (n i c : Nat) (hi : i + n = ls.length) :
    hammingBoucle s t i c n = .ok (c + ((ls.drop i).zip (lt.drop i)).countP (fun p => p.1 != p.2)) := by
  induction n generalizing i c with
  | zero =>
    rw [List.drop_eq_nil_of_le (by omega)]
    simp [hammingBoucle]
  | succ n ih =>
    have h1 : i < ls.length := by omega
    have h2 : i < lt.length := by omega
    simp only [hammingBoucle, hs.bit i h1, ht.bit i h2, bind, Except.bind]
    rw [ih _ _ (by omega), List.drop_eq_getElem_cons h1, List.drop_eq_getElem_cons h2]
    simp only [List.zip_cons_cons, List.countP_cons]
    congr 1
    split <;> omega

theorem iarrayBoucle_spec (s : BS) (l : List Bool) (h : Repr s l) (n i : Nat) (hi : i + n = l.length) :
    iarrayBoucle s i n = .ok ((l.drop i).map (fun b => if b then (1 : Int) else 0)) := by
  induction n generalizing i with
  | zero =>
    rw [List.drop_eq_nil_of_le (by omega)]; rfl
  | succ n ih =>
    have h1 : i < l.length := by omega
    simp only [iarrayBoucle, h.bit i h1, bind, Except.bind, ih (i + 1) (by omega)]
    rw [List.drop_eq_getElem_cons h1]
    rfl

theorem ofVecBoucle_spec (s : BS) (l : List Bool) (h : Repr s l) (x : List Int) :
    ∃ s', ofVecBoucle s x = .ok s' ∧ Repr s' (l ++ x.map (fun v => v != 0)) := by
  induction x generalizing s l with
  | nil => exact ⟨s, rfl, by simpa using h⟩
  | cons a x ih =>
    obtain ⟨s1, e1, r1, _⟩ := push_spec s l (a != 0) h
    obtain ⟨s2, e2, r2⟩ := ih s1 _ r1
    refine ⟨s2, ?_, by simpa using r2⟩
    simp only [ofVecBoucle, e1, bind, Except.bind]
    exact e2

theorem ofChaineBoucle_spec (s : BS) (l : List Bool) (h : Repr s l) (cs : List Char) :
    (∀ c ∈ cs, c = '0' ∨ c = '1') →
    ∃ s', ofChaineBoucle s cs = .ok s' ∧ Repr s' (l ++ cs.map (fun c => c == '1')) ∧ s'.pos = s.pos ∧
      (Slack s → Slack s') := by
  induction cs generalizing s l with
  | nil => intro _; exact ⟨s, rfl, by simpa using h, rfl, id⟩
  | cons c cs ih =>
    intro hc
    have hc1 := hc c (by simp)
    obtain ⟨s1, e1, r1, p1, k1⟩ := push_spec s l (c == '1') h
    obtain ⟨s2, e2, r2, p2, k2⟩ := ih s1 _ r1 (fun c hm => hc c (by simp [hm]))
    refine ⟨s2, ?_, by simpa using r2, by rw [p2, p1], fun hs => k2 (k1 hs)⟩
    rcases hc1 with h0 | h0 <;> subst h0
    · have e1' : push s false = .ok s1 := e1
      simp [ofChaineBoucle, e1', bind, Except.bind]
      exact e2
    · have e1' : push s true = .ok s1 := e1
      simp [ofChaineBoucle, e1', bind, Except.bind]
      exact e2

theorem ofChaineBoucle_err (s : BS) (l : List Bool) (h : Repr s l) (cs : List Char)
    (hc : ∃ c ∈ cs, c ≠ '0' ∧ c ≠ '1') : ofChaineBoucle s cs = .error .chaine := by
  induction cs generalizing s l with
  | nil => simp at hc
  | cons c cs ih =>
    unfold ofChaineBoucle
    by_cases h1 : c = '1'
    · rw [if_pos h1]
      obtain ⟨s1, e1, r1, _⟩ := push_spec s l true h
      simp only [e1, bind, Except.bind]
      refine ih s1 _ r1 ?_
      obtain ⟨d, hd, hd2⟩ := hc
      simp at hd
      rcases hd with rfl | hd
      · exact absurd h1 hd2.2
      · exact ⟨d, hd, hd2⟩
    · rw [if_neg h1]
      by_cases h0 : c = '0'
      · rw [if_pos h0]
        obtain ⟨s1, e1, r1, _⟩ := push_spec s l false h
        simp only [e1, bind, Except.bind]
        refine ih s1 _ r1 ?_
        obtain ⟨d, hd, hd2⟩ := hc
        simp at hd
        rcases hd with rfl | hd
        · exact absurd h0 hd2.1
        · exact ⟨d, hd, hd2⟩
      · rw [if_neg h0]

theorem egal_iff (s t : BS) : egal s t = true ↔
    s.buffer.length = t.buffer.length ∧ ∀ i, i / 8 < s.buffer.length → get s i = get t i := by
  unfold egal
  rw [beq_iff_eq]
  constructor
  · intro h; refine ⟨by rw [h], fun i _ => ?_⟩
    unfold get; rw [h]
  · rintro ⟨hl, hb⟩
    apply List.ext_getElem hl
    intro i h1 h2
    apply octet_ext
    intro j hj
    have := hb (8 * i + j) (by omega)
    rw [get_ok _ _ (by omega), get_ok _ _ (by omega)] at this
    have e1 : (8 * i + j) / 8 = i := by omega
    have e2 : (8 * i + j) % 8 = j := by omega
    simp only [e1, e2] at this
    simpa using this

end Verif.BitStream
