/-
Model of `tsd::telecom::BitStream`
  /repo/core/src/telecom/bitstream.cc, /repo/core/include/tsd/telecom/bitstream.hpp

Simplifications common to the file:
* `entier`/`unsigned int` indices and lengths are unbounded `Nat` (streams of 2^31 bits or more are out of scope);
* `std::vector<unsigned char>` is a `List (BitVec 8)`;
* a C++ exception (`échec`, and `msg_erreur` with the library's default logger) is `Except.error`;
  `Err.ub` marks undefined behaviour (a modulo by zero).
-/
namespace Verif.BitStream

/-- One `unsigned char` of the packed buffer. -/
abbrev Octet := BitVec 8

/-- Ways a call can fail: the three `échec` messages, the read error, and undefined behaviour. -/
inductive Err where
  | ecriture   -- bitstream.cc:64
  | lecture    -- bitstream.cc:79
  | chaine     -- bitstream.cc:96
  | hamming    -- bitstream.cc:104
  | ub         -- integer modulo by zero
deriving DecidableEq, Repr

/-- The three data members, bitstream.hpp:113-114. -/
structure BS where
  buffer : List Octet
  pos    : Nat
  nbits  : Nat
deriving DecidableEq, Repr

/-- Default constructor, bitstream.hpp:25 with member initialisers :113-114. -/
def vide : BS := ⟨[], 0, 0⟩

/-- `std::vector::resize(n, 0)` as used at bitstream.cc:214 and :238. -/
def resizeVec (l : List Octet) (n : Nat) : List Octet :=
  l.take n ++ List.replicate (n - l.length) 0#8

/-- `BitStream::set`, bitstream.cc:58-70. -/
def set (s : BS) (index : Nat) (valeur : Bool) : Except Err BS :=
  let octet := index / 8
  let bit   := index &&& 7
  match s.buffer[octet]? with
  | none   => .error .ecriture
  | some o =>
    .ok { s with
      buffer := s.buffer.set octet
        (if valeur then o ||| (1#8 <<< bit) else o &&& ~~~(1#8 <<< bit)) }

/-- `BitStream::operator[]`, bitstream.cc:72-85. -/
def get (s : BS) (index : Nat) : Except Err Bool :=
  let octet := index / 8
  let bit   := index &&& 7
  match s.buffer[octet]? with
  | none   => .error .lecture
  | some o => .ok ((o &&& (1#8 <<< bit)) != 0#8)

/-- `BitStream::push`, bitstream.cc:234-241. -/
def push (s : BS) (b : Bool) : Except Err BS :=
  let nbits := s.nbits + 1
  let buf := if nbits > 8 * s.buffer.length then resizeVec s.buffer ((nbits + 7) / 8) else s.buffer
  set { s with nbits := nbits, buffer := buf } (nbits - 1) b

/-- A loop `pour(i = 0; i < n; i++) r.push(b)`, as in bitstream.cc:17-18, :42-43, :189-190. -/
def pushN (s : BS) (b : Bool) : Nat → Except Err BS
  | 0     => .ok s
  | n + 1 => do let s' ← push s b; pushN s' b n

/-- `BitStream::lon`, bitstream.cc:145-148. -/
def lon (s : BS) : Nat := s.nbits

/-- `BitStream::resize`, bitstream.cc:211-216. -/
def resize (s : BS) (n : Nat) : BS :=
  { nbits := n, buffer := resizeVec s.buffer ((n + 7) / 8), pos := 0 }

/-- `BitStream::clear`, bitstream.cc:177-180. -/
def clear (s : BS) : BS := resize s 0

/-- `BitStream::restart`, bitstream.cc:172-175. -/
def restart (s : BS) : BS := { s with pos := 0 }

/-- `BitStream::BitStream(entier n)`, bitstream.cc:114-117. -/
def ofLon (n : Nat) : BS := resize vide n

/-- `BitStream::pad`, bitstream.cc:187-191. -/
def pad (s : BS) (nzeros : Nat) : Except Err BS := pushN s false nzeros

/-- `BitStream::pad_mult`, bitstream.cc:193-204 (`m` non-negative; `m = 0` is a C++ modulo by zero). -/
def padMult (s : BS) (m : Nat) : Except Err BS :=
  if m = 0 then .error .ub
  else
    let reste := lon s % m
    if reste ≠ 0 then pad s (m - reste) else .ok s

/-- `BitStream::zéros`, bitstream.cc:13-20. -/
def zeros (n : Nat) : Except Err BS := pushN vide false n

/-- `BitStream::uns`, bitstream.cc:38-45. -/
def uns (n : Nat) : Except Err BS := pushN vide true n

/-- The loop of `altern`, bitstream.cc:26-30: `for(i; i < nbits + 1; i += 2) { push(1); push(0); }`. -/
def alternBoucle (r : BS) (i nbits : Nat) : Except Err BS :=
  if i < nbits + 1 then do
    let r ← push r true
    let r ← push r false
    alternBoucle r (i + 2) nbits
  else .ok r
termination_by nbits + 1 - i

/-- `BitStream::altern`, bitstream.cc:22-36. -/
def altern (nbits : Nat) : Except Err BS := do
  let r ← alternBoucle vide 0 nbits
  if nbits &&& 1 ≠ 0 then push r true else .ok r

/-- A loop `pour(i..) res.push(t[i])` reading `n` bits of `t` from index `i`: bitstream.cc:158-161. -/
def pushFrom (res : BS) (t : BS) (i : Nat) : Nat → Except Err BS
  | 0     => .ok res
  | n + 1 => do
    let b ← get t i
    let res ← push res b
    pushFrom res t (i + 1) n

/-- `operator +(const BitStream &, const BitStream &)`, bitstream.cc:155-163. -/
def add (t1 t2 : BS) : Except Err BS := do
  let res ← pushFrom vide t1 0 (lon t1)
  pushFrom res t2 0 (lon t2)

/-- `BitStream::operator +=`, bitstream.cc:206-209. -/
def addAssign (s t : BS) : Except Err BS := add s t

/-- Loop of `push_u32` from bit `j`, bitstream.cc:220-221. -/
def pushU32Boucle (s : BS) (i : BitVec 32) (j : Nat) : Nat → Except Err BS
  | 0     => .ok s
  | k + 1 => do
    let s ← push s ((i &&& (1#32 <<< j)) != 0#32)
    pushU32Boucle s i (j + 1) k

/-- `BitStream::push_u32`, bitstream.cc:218-222. -/
def pushU32 (s : BS) (i : BitVec 32) : Except Err BS := pushU32Boucle s i 0 32

/-- `BitStream::pop`, bitstream.cc:243-246. -/
def pop (s : BS) : Except Err (Bool × BS) := do
  let b ← get s s.pos
  .ok (b, { s with pos := s.pos + 1 })

/-- `BitStream::eof`, bitstream.cc:248-251. -/
def eof (s : BS) : Bool := decide (s.pos ≥ s.nbits)

/-- Loop of `pop_u32`, bitstream.cc:228-229. -/
def popU32Boucle (s : BS) (res : BitVec 32) (j : Nat) : Nat → Except Err (BitVec 32 × BS)
  | 0     => .ok (res, s)
  | k + 1 => do
    let (b, s) ← pop s
    popU32Boucle s (res ||| (((if b then 1#32 else 0#32) &&& 1#32) <<< j)) (j + 1) k

/-- `BitStream::pop_u32`, bitstream.cc:224-232. -/
def popU32 (s : BS) : Except Err (BitVec 32 × BS) := popU32Boucle s 0#32 0 32

/-- `BitStream::operator==`, bitstream.cc:150-153. -/
def egal (s t : BS) : Bool := s.buffer == t.buffer

/-- The constructor from a string, bitstream.cc:87-98 (loop over the remaining characters). -/
def ofChaineBoucle (s : BS) : List Char → Except Err BS
  | []      => .ok s
  | c :: cs =>
    if c = '1' then do let s ← push s true; ofChaineBoucle s cs
    else if c = '0' then do let s ← push s false; ofChaineBoucle s cs
    else .error .chaine

/-- `BitStream::BitStream(cstring)`, bitstream.cc:87-98. -/
def ofChaine (cs : List Char) : Except Err BS := ofChaineBoucle vide cs

/-- Loop of `dst_Hamming`, bitstream.cc:106-109. -/
def hammingBoucle (s t : BS) (i cnt : Nat) : Nat → Except Err Nat
  | 0     => .ok cnt
  | n + 1 => do
    let a ← get s i
    let b ← get t i
    hammingBoucle s t (i + 1) (if a != b then cnt + 1 else cnt) n

/-- `BitStream::dst_Hamming`, bitstream.cc:100-112. -/
def dstHamming (s t : BS) : Except Err Nat :=
  if lon t ≠ lon s then .error .hamming
  else hammingBoucle s t 0 0 (lon s)

/-- Loop of `iarray`, bitstream.cc:131-132. -/
def iarrayBoucle (s : BS) (i : Nat) : Nat → Except Err (List Int)
  | 0     => .ok []
  | n + 1 => do
    let b ← get s i
    let r ← iarrayBoucle s (i + 1) n
    .ok ((if b then 1 else 0) :: r)

/-- `BitStream::iarray` (and `array`, same loop with floats), bitstream.cc:127-143. -/
def iarray (s : BS) : Except Err (List Int) := iarrayBoucle s 0 (lon s)

/-- The constructor from a vector, bitstream.cc:119-125 (`x(i) != 0` on an exact numeric carrier). -/
def ofVecBoucle (s : BS) : List Int → Except Err BS
  | []      => .ok s
  | x :: xs => do let s ← push s (x != 0); ofVecBoucle s xs

/-- `BitStream::BitStream(const Vecf &)`, bitstream.cc:119-125. -/
def ofVec (x : List Int) : Except Err BS := ofVecBoucle vide x

end Verif.BitStream
