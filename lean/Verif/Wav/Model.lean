/-
Model of the WAV file writer and reader (core/src/wav.cc).

A file is the list of its bytes.  32-bit floats are carried as their bit
patterns (`BitVec 32`), 16-bit samples as `BitVec 16`; the two C++ conversions
between them are modelled through the rational value of the pattern.
Not modelled: the operating system (a write always succeeds), the log messages.
-/
import Mathlib.Data.Rat.Floor
import Mathlib.Algebra.Order.Floor.Ring

namespace Wav

/-! ### Bytes -/

/-- `k` bytes of `n`, least significant first: the image in memory of the packed
fields of `wave_entete_t` and of the samples on the supported (little-endian)
targets.  core/src/wav.cc:15-64 (packed structure), 384, 430, 461, 473. -/
def le : ℕ → ℕ → List UInt8
  | 0, _ => []
  | k + 1, n => UInt8.ofNat n :: le k (n / 256)

/-- The converse: reading a little-endian field.  core/src/wav.cc:151 -/
def unle : List UInt8 → ℕ
  | [] => 0
  | b :: r => b.toNat + 256 * unle r

/-- The field of `len` bytes at offset `off`. core/src/wav.cc:15-64 -/
def champ (f : List UInt8) (off len : ℕ) : ℕ := unle ((f.drop off).take len)

/-! ### Conversions between `float` and `int16_t` -/

/-- Rational value of a binary32 pattern; `none` for infinities and NaN
(C++ `float`, used at core/src/wav.cc:225, 455, 481). -/
def valF (b : BitVec 32) : Option ℚ :=
  let m : ℕ := b.toNat % 2 ^ 23
  let e : ℕ := b.toNat / 2 ^ 23 % 256
  let s : ℚ := if b.toNat / 2 ^ 31 = 1 then -1 else 1
  if e = 255 then none
  else if e = 0 then some (s * (m : ℚ) * (2 : ℚ) ^ (-149 : ℤ))
  else some (s * ((2 ^ 23 + m : ℕ) : ℚ) * (2 : ℚ) ^ ((e : ℤ) - 150))

/-- `(float) v` for an `int16_t`: exact.  core/src/wav.cc:225, 481 -/
def flotDe (v : BitVec 16) : BitVec 32 :=
  let a := v.toInt.natAbs
  if a = 0 then 0#32
  else
    let k := Nat.log2 a
    BitVec.ofNat 32
      ((if v.toInt < 0 then 2 ^ 31 else 0) + (k + 127) * 2 ^ 23 + (a * 2 ^ (23 - k) - 2 ^ 23))

/-- Truncation towards zero (floating to integral conversion). core/src/wav.cc:455 -/
def tronque (q : ℚ) : ℤ := if 0 ≤ q then ⌊q⌋ else ⌈q⌉

/-- `(int16_t) x`: truncation towards zero; the conversion has no defined
behaviour when the truncated value does not fit (`none`).
core/src/wav.cc:455 -/
def entDe (b : BitVec 32) : Option (BitVec 16) :=
  match valF b with
  | none => none
  | some q =>
    if -32768 ≤ tronque q ∧ tronque q ≤ 32767 then some (BitVec.ofInt 16 (tronque q)) else none

/-! ### Writer -/

/-- `WavConfig`.  core/include/tsd/wav.hpp:17-29.  `freq` is the (finite,
non-negative) value of the `double freq_ech`; `ncanaux` is an `int` taken
non-negative. -/
structure Config where
  ncanaux : ℕ
  freq : ℚ
  flottant : Bool
deriving Inhabited

/-- `WavEcrivain::Impl`: `octets` is the content of the file.
core/src/wav.cc:351-356 -/
structure Ecrivain where
  cfg : Config
  ouvert : Bool
  octets : List UInt8
  pos : ℕ

/-- `init`: a file beginning with 44 zero bytes.  core/src/wav.cc:363-392 -/
def init (cfg : Config) : Ecrivain :=
  { cfg := cfg, ouvert := true, octets := List.replicate 44 0, pos := 0 }

/-- Number of bytes of a sample.  core/src/wav.cc:401 -/
def octetsParEch (flottant : Bool) : ℕ := if flottant then 4 else 2

/-- `pos += n / cfg.ncanaux` on a `uint32_t`, an integer division: undefined for
zero channels.  core/src/wav.cc:462, 474 -/
def avance (w : Ecrivain) (n : ℕ) : Option ℕ :=
  if w.cfg.ncanaux = 0 then none else some ((w.pos + n / w.cfg.ncanaux) % 2 ^ 32)

/-- `ecris(int16_t *, n)` in a 16-bit file.  core/src/wav.cc:471-475 -/
def ecris16 (w : Ecrivain) (x : List (BitVec 16)) : Option Ecrivain :=
  (avance w x.length).map fun p =>
    { w with octets := w.octets ++ x.flatMap (fun v => le 2 v.toNat), pos := p }

/-- `ecris(Vecf)` in a float file.  core/src/wav.cc:456-463 -/
def ecris32 (w : Ecrivain) (x : List (BitVec 32)) : Option Ecrivain :=
  (avance w x.length).map fun p =>
    { w with octets := w.octets ++ x.flatMap (fun v => le 4 v.toNat), pos := p }

/-- `ecris(const Vecf &)`.  core/src/wav.cc:446-465 -/
def ecrisF (w : Ecrivain) (x : List (BitVec 32)) : Option Ecrivain :=
  if w.ouvert then
    if w.cfg.flottant then ecris32 w x
    else (x.mapM entDe).bind (ecris16 w)
  else some w

/-- `ecris(int16_t *, entier n)`.  core/src/wav.cc:467-485 -/
def ecrisI (w : Ecrivain) (x : List (BitVec 16)) : Option Ecrivain :=
  if w.ouvert then
    if w.cfg.flottant then ecris32 w (x.map flotDe) else ecris16 w x
  else some w

/-- `ecris(const Veccf &)`: real and imaginary parts interleaved.
core/src/wav.cc:436-444 -/
def ecrisC (w : Ecrivain) (x : List (BitVec 32 × BitVec 32)) : Option Ecrivain :=
  ecrisF w (x.flatMap fun z => [z.1, z.2])

/-- Conversion `double -> uint32_t`: truncation, undefined out of range.
core/src/wav.cc:420-421 -/
def versU32 (q : ℚ) : Option ℕ :=
  if 0 ≤ q ∧ q < 2 ^ 32 then some ⌊q⌋.toNat else none

/-- The 44 bytes of the header written by `ferme`.  `indet` is the field
`file_size`, which the code leaves uninitialised.  core/src/wav.cc:403-428 -/
def entete (cfg : Config) (indet freq bps taille : ℕ) : List UInt8 :=
  le 4 0x46464952 ++ le 4 indet ++ le 4 0x45564157 ++ le 4 0x20746d66 ++ le 4 16
    ++ le 2 (if cfg.flottant then 3 else 1) ++ le 2 cfg.ncanaux ++ le 4 freq ++ le 4 bps
    ++ le 2 (octetsParEch cfg.flottant) ++ le 2 (octetsParEch cfg.flottant * 8)
    ++ le 4 0x61746164 ++ le 4 taille

/-- `ferme`: the header overwrites the first 44 bytes of the file.
core/src/wav.cc:394-434 -/
def ferme (indet : ℕ) (w : Ecrivain) : Option Ecrivain :=
  if w.ouvert then
    (versU32 w.cfg.freq).bind fun fr =>
      (versU32 (w.cfg.freq * octetsParEch w.cfg.flottant)).map fun bps =>
        { w with
          ouvert := false
          octets := entete w.cfg indet fr bps
            (w.pos * octetsParEch w.cfg.flottant * w.cfg.ncanaux) ++ w.octets.drop 44 }
  else some w

/-! ### Reader -/

/-- The fields of the header the reader uses.  core/src/wav.cc:15-64 -/
structure Entete where
  format : ℕ
  ncanaux : ℕ
  freq : ℕ
  bits : ℕ
deriving DecidableEq, Repr

/-- `WavLecteur::Impl` once a file is open: `ptr` is the position of the `FILE`,
`fin` its end-of-file indicator.  core/src/wav.cc:115-121 -/
structure Lecteur where
  fichier : List UInt8
  ent : Entete
  ptr : ℕ
  fin : Bool
  pos : ℤ
  nech : ℤ

/-- Outcome of `charge`: an exception, an undefined behaviour, an open reader. -/
inductive Issue where
  | erreur
  | indefini
  | ok (l : Lecteur)

/-- A `uint32_t` stored in an `int`.  core/src/wav.cc:170, 194 -/
def versInt (n : ℕ) : ℤ := (BitVec.ofNat 32 n).toInt

/-- `nech = (8 * data_size) / (bits_per_sample * nbr_canaux)`: the numerator is a
`uint32_t`, the denominator an `int`.  core/src/wav.cc:194 -/
def calculeNech (e : Entete) (taille : ℕ) : Option ℤ :=
  if e.bits * e.ncanaux = 0 ∨ 2 ^ 31 ≤ e.bits * e.ncanaux then none
  else some (versInt ((8 * taille) % 2 ^ 32 / (e.bits * e.ncanaux)))

/-- `fseek(fd, d, SEEK_CUR)`: fails, leaving the position as it is, when the
target is before the beginning of the file.  core/src/wav.cc:176 -/
def deplace (ptr : ℕ) (d : ℤ) : ℕ := if (ptr : ℤ) + d < 0 then ptr else ((ptr : ℤ) + d).toNat

/-- State of the loop `retry:` : identifier and size of the current block, and the
position of the file (beginning of the content of that block). -/
structure Bloc where
  id : ℕ
  taille : ℕ
  ptr : ℕ

/-- One turn of the loop `retry:`.  core/src/wav.cc:158-194 -/
inductive Tour where
  | suite (b : Bloc)
  | fini (i : Issue)

/-- Opening on the `data` block.  core/src/wav.cc:194 -/
def ouvre (f : List UInt8) (e : Entete) (b : Bloc) : Issue :=
  match calculeNech e b.taille with
  | none => .indefini
  | some n => .ok { fichier := f, ent := e, ptr := b.ptr, fin := false, pos := 0, nech := n }

/-- Skipping a block whose identifier is not `data`: the size is put in an `int`,
rounded up to an even number, and the 8 bytes of the next block header are read.
core/src/wav.cc:160-193 -/
def saute (f : List UInt8) (b : Bloc) : Tour :=
  let n := versInt b.taille
  if n = 2 ^ 31 - 1 then .fini .indefini
  else
    let p := deplace b.ptr (if n % 2 = 0 then n else n + 1)
    if p + 8 ≤ f.length then
      .suite { id := champ f p 4, taille := champ f (p + 4) 4, ptr := p + 8 }
    else .fini .erreur

/-- core/src/wav.cc:158-194 -/
def tour (f : List UInt8) (e : Entete) (b : Bloc) : Tour :=
  if b.id = 0x61746164 then .fini (ouvre f e b) else saute f b

/-- The loop `retry:` run for at most `k` turns (`none`: not finished yet).
core/src/wav.cc:158-194 -/
def boucle (f : List UInt8) (e : Entete) : ℕ → Bloc → Option Issue
  | 0, _ => none
  | k + 1, b =>
    match tour f e b with
    | .fini i => some i
    | .suite b' => boucle f e k b'

/-- The fields of a header.  core/src/wav.cc:15-64 -/
def lisEntete (f : List UInt8) : Entete :=
  { format := champ f 20 2, ncanaux := champ f 22 2, freq := champ f 24 4, bits := champ f 34 2 }

/-- `charge`, with at most `k` turns of its loop.  core/src/wav.cc:127-194 -/
def charge (k : ℕ) (f : List UInt8) : Option Issue :=
  if f.length < 44 then some .erreur
  else if champ f 0 4 ≠ 0x46464952 then some .erreur
  else boucle f (lisEntete f) k { id := champ f 36 4, taille := champ f 40 4, ptr := 44 }

/-- The elements of `taille` bytes obtained by `fread` in a byte string (an
incomplete last element is not delivered).  core/src/wav.cc:230, 244 -/
def elements (taille : ℕ) : ℕ → List UInt8 → List ℕ
  | 0, _ => []
  | n + 1, b => if b.length < taille then []
      else unle (b.take taille) :: elements taille n (b.drop taille)

/-- `fread(res, taille, n, fd)`: the elements and the new state of the file.
core/src/wav.cc:230, 244 -/
def fread (l : Lecteur) (taille n : ℕ) : List ℕ × Lecteur :=
  let reste := l.fichier.drop l.ptr
  let v := elements taille n reste
  (v, { l with ptr := l.ptr + min reste.length (taille * n)
               fin := l.fin || decide (reste.length < taille * n)
               pos := l.pos + v.length })

/-- `lis_donnees`: the values stored in `res` (the returned count is their
number).  core/src/wav.cc:238-250 -/
def lisDonnees (l : Lecteur) (n : ℕ) : List (BitVec 16) × Lecteur :=
  let r := fread l 2 n
  (r.1.map (BitVec.ofNat 16), r.2)

/-- `lis_flottant(n)`: the elements of the result that the file defines; those
beyond (short read) are left indeterminate by the code.
core/src/wav.cc:213-236 -/
def lisFlottant (l : Lecteur) (n : ℕ) : List (BitVec 32) × Lecteur :=
  if l.ent.format = 1 then
    let r := lisDonnees l n
    (r.1.map flotDe, r.2)
  else
    let r := fread l 4 n
    (r.1.map (BitVec.ofNat 32), r.2)

/-- `redemarre`.  core/src/wav.cc:330-337 -/
def redemarre (l : Lecteur) : Lecteur := { l with ptr := 44, fin := false, pos := 0 }

/-- `recherche(temps)`, `k` being the integer `(entier) (temps * frequency)`, taken
non-negative.  core/src/wav.cc:339-349 -/
def recherche (l : Lecteur) (k : ℕ) : Lecteur :=
  { l with ptr := k * 2 + 44, fin := false, pos := k }

/-- `wav_enregistre`: float mono file closed by the destructor.
core/src/wav.cc:83-88 -/
def enregistre (indet : ℕ) (fech : ℚ) (x : List (BitVec 32)) : Option (List UInt8) :=
  (ecrisF (init ⟨1, fech, true⟩) x).bind fun w => (ferme indet w).map (·.octets)

/-- `wav_enregistre_stereo`.  core/src/wav.cc:90-95 -/
def enregistreStereo (indet : ℕ) (fech : ℚ) (x : List (BitVec 32 × BitVec 32)) :
    Option (List UInt8) :=
  (ecrisC (init ⟨2, fech, true⟩) x).bind fun w => (ferme indet w).map (·.octets)

/-- `lis_flottant(lis_nechantillons())` on the result of `charge`; a negative count
is no valid size.  core/src/wav.cc:97-114 -/
def wavCharge (k : ℕ) (f : List UInt8) : Option (Option (List (BitVec 32) × ℕ)) :=
  (charge k f).map fun
    | .ok l => if 0 ≤ l.nech then some ((lisFlottant l l.nech.toNat).1, l.ent.freq) else none
    | _ => none

/-- Two by two. core/src/wav.cc:77-78 (`memcpy` of floats into complex) -/
def apparie {α : Type} : List α → List (α × α)
  | a :: b :: r => (a, b) :: apparie r
  | _ => []

/-- `wav_charge_stereo`.  core/src/wav.cc:66-81 -/
def wavChargeStereo (k : ℕ) (f : List UInt8) :
    Option (Option (List (BitVec 32 × BitVec 32) × ℕ)) :=
  (charge k f).map fun
    | .ok l => if 0 ≤ l.nech then
        some (apparie (lisFlottant l (2 * l.nech.toNat)).1, l.ent.freq) else none
    | _ => none

end Wav
