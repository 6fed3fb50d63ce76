import Verif.BitStream.Props
import Mathlib.Data.List.Basic

/-!
# C195: random draws (core/src/tsd.cc:173, 410-496, core/src/telecom/bitstream.cc:47-56)

The engine and the distributions of the standard library are abstract: a draw is a function from the state of the engine to its next state and a value.
-/

namespace Verif.BitStream.Alea

variable {G α : Type}

/-! ## Model -/

/-- The loops `*ptr++ = distribution(generateur)`, core/src/tsd.cc:417-418, 451-452. -/
def tirage (t : G → G × α) : ℕ → G → G × List α
  | 0, g => (g, [])
  | n + 1, g => ((tirage t n (t g).1).1, (t g).2 :: (tirage t n (t g).1).2)

/-- `randu(n, a, b)` and `randi(M, n)` on the state of the global engine, core/src/tsd.cc:410-421, 446-454 (these distributions have no memory). -/
def randVec (t : G → G × α) (n : ℕ) (g : G) : G × List α := tirage t n g

/-- `randu()` and `randi(M)`, core/src/tsd.cc:423-427, 440-444. -/
def randScal (t : G → G × α) (g : G) : G × α := t g

/-- `randb(n)`, core/src/tsd.cc:429-437: a new engine, of state `neuf`, is used; the global one is left as it is. -/
def randb (neuf : G) (t : G → G × Bool) (n : ℕ) (g : G) : G × List Bool := (g, (tirage t n neuf).2)

/-- `BitStream::rand(nbits)`, core/src/telecom/bitstream.cc:47-56: the whole bytes of the buffer are drawn. -/
def randFlux (t : G → G × Octet) (n : ℕ) (g : G) : G × BS := ((tirage t (resize vide n).buffer.length g).1, { resize vide n with buffer := (tirage t (resize vide n).buffer.length g).2 })

/-! ## Proofs -/

theorem tirage_longueur (t : G → G × α) (n : ℕ) : ∀ g, (tirage t n g).2.length = n := by
  induction n with
  | zero => intro g; rfl
  | succ n ih => intro g; rw [tirage, List.length_cons, ih]

theorem tirage_suite (t : G → G × α) (n m : ℕ) : ∀ g, tirage t (n + m) g = ((tirage t m (tirage t n g).1).1, (tirage t n g).2 ++ (tirage t m (tirage t n g).1).2) := by
  induction n with
  | zero => intro g; rw [Nat.zero_add]; rfl
  | succ n ih => intro g; rw [Nat.succ_add, tirage, ih]; rfl

/-- **C195 (one sequence).** Successive vector draws are consecutive pieces of one sequence: cutting a request in two changes nothing; scalar draws take the next element of the same sequence. -/
theorem C195_suite (t : G → G × α) (n m : ℕ) (g : G) :
    (randVec t (n + m) g).2 = (randVec t n g).2 ++ (randVec t m (randVec t n g).1).2 ∧ (randVec t (n + m) g).1 = (randVec t m (randVec t n g).1).1 ∧ (randVec t n g).2.length = n ∧
    (randVec t (1 + m) g).2 = (randScal t g).2 :: (randVec t m (randScal t g).1).2 := by
  refine ⟨?_, ?_, tirage_longueur t n g, ?_⟩
  · rw [randVec, tirage_suite]; rfl
  · rw [randVec, tirage_suite]; rfl
  · rw [randVec, Nat.add_comm, tirage]; rfl

/-- **C195, violated by `randb`.** Two calls give the same bits whatever was drawn in between, a shorter request gives a prefix of a longer one, and the seed of the global engine has no effect. -/
theorem C195_randb_refute (neuf : G) (t : G → G × Bool) (n m : ℕ) (h : n ≤ m) (g g' : G) :
    (randb neuf t n g).2 = ((randb neuf t m g').2).take n ∧ (randb neuf t n g).1 = g := by
  refine ⟨?_, rfl⟩
  obtain ⟨k, rfl⟩ := Nat.exists_eq_add_of_le h
  simp only [randb]
  rw [tirage_suite, List.take_append_of_le_length (Nat.le_of_eq (tirage_longueur t n neuf).symm), List.take_of_length_le (Nat.le_of_eq (tirage_longueur t n neuf))]

/-- **C195 (random bit streams).** A random stream of `n` bits has `n` bits, read from its start, and its bits are those of the drawn bytes, the least significant first. -/
theorem C195_flux (t : G → G × Octet) (n : ℕ) (g : G) :
    lon (randFlux t n g).2 = n ∧ (randFlux t n g).2.pos = 0 ∧ (tirage t ((n + 7) / 8) g).2.length = (n + 7) / 8 ∧ (randFlux t n g).1 = (tirage t ((n + 7) / 8) g).1 ∧
    ∀ i, i < n → ∃ o, (tirage t ((n + 7) / 8) g).2[i / 8]? = some o ∧ get (randFlux t n g).2 i = .ok (o.getLsbD (i % 8)) := by
  have hl : (resize vide n).buffer.length = (n + 7) / 8 := by simp [resize, resizeVec, vide]
  refine ⟨rfl, rfl, tirage_longueur t _ g, by rw [randFlux, hl], fun i hi => ?_⟩
  have hi8 : i / 8 < (tirage t ((n + 7) / 8) g).2.length := by rw [tirage_longueur]; omega
  refine ⟨_, List.getElem?_eq_getElem hi8, ?_⟩
  have hb : (randFlux t n g).2.buffer = (tirage t ((n + 7) / 8) g).2 := by rw [randFlux, hl]
  unfold get
  simp only [hb, List.getElem?_eq_getElem hi8]
  have hm : i &&& 7 = i % 8 := by have := Nat.and_two_pow_sub_one_eq_mod i 3; simpa using this
  rw [hm]
  have : ∀ o : Octet, ∀ j < 8, ((o &&& (1#8 <<< j)) != 0#8) = o.getLsbD j := by decide +kernel
  rw [this _ _ (Nat.mod_lt _ (by decide))]

/-- **C195, violated by the comparison of random streams.** When the length is not a whole number of bytes and the last bit drawn for the last byte is 1, the random stream is different, for `==`, from every stream with the same bits built without truncation. -/
theorem C195_flux_egal_refute (t : G → G × Octet) (n : ℕ) (hn : n % 8 ≠ 0) (g : G) (o : Octet) (ho : (tirage t ((n + 7) / 8) g).2[n / 8]? = some o) (h7 : o.getLsbD 7 = true)
    (s : BS) (l : List Bool) (hs : AtteintSansTronc s l) (hl : l.length = n) : egal (randFlux t n g).2 s = false := by
  obtain ⟨rs, ks⟩ := atteintST_slack hs
  have hlb : (resize vide n).buffer.length = (n + 7) / 8 := by simp [resize, resizeVec, vide]
  have hb : (randFlux t n g).2.buffer = (tirage t ((n + 7) / 8) g).2 := by rw [randFlux, hlb]
  by_contra hc
  rw [Bool.not_eq_false, egal_iff] at hc
  have h1 := hc.2 (8 * (n / 8) + 7) (by rw [hb, tirage_longueur]; omega)
  have h2 := ks (8 * (n / 8) + 7) (by rw [rs.nb, hl]; omega) (by rw [rs.len, hl]; omega)
  rw [h2] at h1
  unfold get at h1
  have e : (8 * (n / 8) + 7) / 8 = n / 8 := by omega
  have hm : (8 * (n / 8) + 7) &&& 7 = 7 := by
    have := Nat.and_two_pow_sub_one_eq_mod (8 * (n / 8) + 7) 3
    have h8 : (8 * (n / 8) + 7) % 8 = 7 := by omega
    simpa [h8] using this
  simp only [hb, e, ho, hm] at h1
  have : ∀ o : Octet, o.getLsbD 7 = true → ((o &&& (1#8 <<< 7)) != 0#8) = true := by decide +kernel
  rw [this o h7] at h1
  exact absurd h1 (by simp)

/-- A generator that always draws the byte 255: its stream of 3 bits is "111" but it is not equal to the stream "111". -/
example : ∃ s, AtteintSansTronc s [true, true, true] ∧ (∀ i, i < 3 → get (randFlux (fun g : Unit => (g, 255#8)) 3 ()).2 i = get s i) ∧ egal (randFlux (fun g : Unit => (g, 255#8)) 3 ()).2 s = false := by
  refine ⟨_, ⟨[.push 0 true, .push 0 true, .push 0 true], _, _, _, 0, rfl, rfl, rfl, rfl, rfl⟩, ?_, ?_⟩
  · intro i hi
    have : i = 0 ∨ i = 1 ∨ i = 2 := by omega
    rcases this with rfl | rfl | rfl <;> decide +kernel
  · decide +kernel

end Verif.BitStream.Alea
