import Verif.Dsp.Memoire
import Mathlib.Tactic.IntervalCases
import Mathlib.Data.Rat.Defs
import Mathlib.Algebra.Order.Field.Rat
import Mathlib.Tactic.NormNum

/-!
# C200: the settings of the demodulator of the English API

`demodulator_new` and the packet receiver of the English API convert their `DemodConfig` (core/include/dsp/telecom.hpp:1187-1261) to the one of the French API (core/include/tsd/telecom.hpp:1029-1108) with `memcpy`.
-/

namespace Verif.Dsp

/-! ## Model -/

/-- `dsp::telecom::DemodConfig`, core/include/dsp/telecom.hpp:1187-1253. Enumerations, integers and floats as 32-bit patterns. -/
structure DemodEn where
  architecture : BitVec 32
  horActif : Bool
  horTc : BitVec 32
  portActif : Bool
  portBL : BitVec 32
  portEta : BitVec 32
  rssiGrossier : BitVec 32
  rssiFin : BitVec 32
  nHorActif : Bool
  nHorMl : Bool
  nHorTed : BitVec 32
  nHorTc : BitVec 32
  nHorItrp : BitVec 32
  nHorDegre : BitVec 32
  nPortActif : Bool
  nPortPed : BitVec 32
  nPortBL : BitVec 32
  nPortEta : BitVec 32
  debug : Bool

/-- Layout of `dsp::telecom::DemodConfig`, core/include/dsp/telecom.hpp:1187-1253. -/
def membresEn : List Membre := [m32, mBool4, m32, mBool4, m32, m32, m32, m32, mBool4, mBool, m32, m32, m32, m32, mBool4, m32, m32, m32, mBool]

/-- Values of the members, in the order of the declarations. -/
def DemodEn.valeurs (c : DemodEn) : List ℕ :=
  [c.architecture.toNat, c.horActif.toNat, c.horTc.toNat, c.portActif.toNat, c.portBL.toNat, c.portEta.toNat, c.rssiGrossier.toNat, c.rssiFin.toNat, c.nHorActif.toNat, c.nHorMl.toNat, c.nHorTed.toNat, c.nHorTc.toNat,
    c.nHorItrp.toNat, c.nHorDegre.toNat, c.nPortActif.toNat, c.nPortPed.toNat, c.nPortBL.toNat, c.nPortEta.toNat, c.debug.toNat]

/-- `tsd::telecom::DemodConfig` as read by the demodulators, core/include/tsd/telecom.hpp:1029-1108: a boolean read from another byte than 0 and 1 is `none`. -/
structure DemodFr where
  architecture : BitVec 32
  horActif : Option Bool
  horTc : BitVec 32
  horItrp : BitVec 32
  horDegre : BitVec 32
  portActif : Option Bool
  portBL : BitVec 32
  portEta : BitVec 32
  cagActif : Option Bool
  cagTc : BitVec 32
  faActif : Option Bool
  rssiGrossier : BitVec 32
  rssiFin : BitVec 32
  nHorActif : Option Bool
  nHorMl : Option Bool
  nHorTed : BitVec 32
  nHorTc : BitVec 32
  nHorItrp : BitVec 32
  nHorDegre : BitVec 32
  nPortActif : Option Bool
  nPortPed : BitVec 32
  nPortBL : BitVec 32
  nPortEta : BitVec 32
  debug : Option Bool

/-- Layout of `tsd::telecom::DemodConfig`, core/include/tsd/telecom.hpp:1029-1108. -/
def membresFr : List Membre := [m32, mBool4, m32, m32, m32, mBool4, m32, m32, mBool4, m32, mBool, m32, m32, mBool4, mBool, m32, m32, m32, m32, mBool4, m32, m32, m32, mBool]

/-- Values of a default constructed `tsd::telecom::DemodConfig`, core/include/tsd/telecom.hpp:1029-1108 (patterns of the floats 100, 0.01, 1, 10, 10, 3, 5, 0.01, 1). -/
def defautFr : List ℕ := [0, 1, 0x42C80000, 0, 3, 1, 0x3C23D70A, 0x3F800000, 1, 0x41200000, 1, 0x41200000, 0x40400000, 1, 0, 0, 0x40A00000, 0, 3, 1, 0, 0x3C23D70A, 0x3F800000, 0]

/-- The members of a `tsd::telecom::DemodConfig` in memory, at the offsets given by the layout (see `positions_fr`). -/
def DemodFr.lu (m : Octets) : DemodFr :=
  ⟨lit32 m 0, litBool m 4, lit32 m 8, lit32 m 12, lit32 m 16, litBool m 20, lit32 m 24, lit32 m 28, litBool m 32, lit32 m 36, litBool m 40, lit32 m 44, lit32 m 48, litBool m 52, litBool m 53, lit32 m 56, lit32 m 60, lit32 m 64,
    lit32 m 68, litBool m 72, lit32 m 76, lit32 m 80, lit32 m 84, litBool m 88⟩

/-- `DemodConfig::fr()`, core/include/dsp/telecom.hpp:1255-1260: `memcpy((void *) &res, this, sizeof(*this))`. `b` and `b'` are the padding bytes of the two objects. -/
def DemodEn.fr (c : DemodEn) (b b' : Octets) : DemodFr := DemodFr.lu (memcpy (sizeOf membresEn) (objet 0 membresEn c.valeurs b) (objet 0 membresFr defautFr b'))

/-- A default constructed `dsp::telecom::DemodConfig`, core/include/dsp/telecom.hpp:1187-1253. -/
def DemodEn.defaut : DemodEn := ⟨0, true, 0x42C80000, true, 0x3C23D70A, 0x3F800000, 0x41200000, 0x40400000, true, false, 0, 0x40A00000, 0, 3, true, 0, 0x3C23D70A, 0x3F800000, false⟩

/-! ## Specification -/

/-- Value of a normal single precision pattern (sign, exponent, mantissa), or of zero. -/
def flottantN (n : ℕ) : ℚ :=
  let e := n / 2 ^ 23 % 256
  let s : ℚ := if n / 2 ^ 31 = 1 then -1 else 1
  if e = 0 then s * (n % 2 ^ 23 : ℕ) / 2 ^ 149 else s * (2 ^ 23 + (n % 2 ^ 23 : ℕ)) * 2 ^ e / 2 ^ 150

/-- The same, for a 32-bit vector. -/
def flottant (v : BitVec 32) : ℚ := flottantN v.toNat

/-- Every setting of the English structure is the setting of the same name of the French structure. -/
structure Transmis (c : DemodEn) (f : DemodFr) : Prop where
  architecture : f.architecture = c.architecture
  horloge : f.horActif = some c.horActif ∧ f.horTc = c.horTc
  porteuse : f.portActif = some c.portActif ∧ f.portBL = c.portBL ∧ f.portEta = c.portEta
  rssi : f.rssiGrossier = c.rssiGrossier ∧ f.rssiFin = c.rssiFin
  nHorloge : f.nHorActif = some c.nHorActif ∧ f.nHorMl = some c.nHorMl ∧ f.nHorTed = c.nHorTed ∧ f.nHorTc = c.nHorTc ∧ f.nHorItrp = c.nHorItrp ∧ f.nHorDegre = c.nHorDegre
  nPorteuse : f.nPortActif = some c.nPortActif ∧ f.nPortPed = c.nPortPed ∧ f.nPortBL = c.nPortBL ∧ f.nPortEta = c.nPortEta
  debug : f.debug = some c.debug

/-- The boolean held by a byte, if it is one. -/
def octetBool (o : ℕ) : Option Bool := if o = 0 then some false else if o = 1 then some true else none

/-! ## Proofs -/

theorem positions_en : positions 0 membresEn = [0, 4, 8, 12, 16, 20, 24, 28, 32, 33, 36, 40, 44, 48, 52, 56, 60, 64, 68] ∧ sizeOf membresEn = 72 := by decide

theorem positions_fr : positions 0 membresFr = [0, 4, 8, 12, 16, 20, 24, 28, 32, 36, 40, 44, 48, 52, 53, 56, 60, 64, 68, 72, 76, 80, 84, 88] ∧ sizeOf membresFr = 92 := by decide

theorem align_en : ∀ m ∈ membresEn, 0 < m.align := by decide

theorem align_fr : ∀ m ∈ membresFr, 0 < m.align := by decide

/-- A 32-bit member that has been copied. -/
theorem copie32 (ms : List Membre) (hms : ∀ m ∈ ms, 0 < m.align) (vs : List ℕ) (b dst : Octets) (n k p : ℕ) (v : BitVec 32) (hk : ms[k]? = some m32) (hp : (positions 0 ms)[k]? = some p) (hv : vs[k]? = some v.toNat) (hn : p + 4 ≤ n) :
    lit32 (memcpy n (objet 0 ms vs b) dst) p = v := by
  apply lit32_octets
  intro j hj
  unfold memcpy
  rw [if_pos (by omega)]
  exact octet_objet ms hms 0 vs b k p m32 v.toNat hk hp hv j hj

/-- The first byte of a copied member. -/
theorem copieOctet (ms : List Membre) (hms : ∀ m ∈ ms, 0 < m.align) (vs : List ℕ) (b dst : Octets) (n k p v : ℕ) (m : Membre) (hm : 0 < m.taille) (hk : ms[k]? = some m) (hp : (positions 0 ms)[k]? = some p) (hv : vs[k]? = some v) (hn : p + 1 ≤ n) :
    memcpy n (objet 0 ms vs b) dst p = v % 256 := by
  unfold memcpy
  rw [if_pos (by omega)]
  have := octet_objet ms hms 0 vs b k p m v hk hp hv 0 hm
  rwa [Nat.add_zero, pow_zero, Nat.div_one] at this

theorem copieBool (ms : List Membre) (hms : ∀ m ∈ ms, 0 < m.align) (vs : List ℕ) (b dst : Octets) (n k p : ℕ) (v : Bool) (m : Membre) (hm : 0 < m.taille) (hk : ms[k]? = some m) (hp : (positions 0 ms)[k]? = some p) (hv : vs[k]? = some v.toNat) (hn : p + 1 ≤ n) :
    litBool (memcpy n (objet 0 ms vs b) dst) p = some v := by
  apply litBool_octet
  rw [copieOctet ms hms vs b dst n k p v.toNat m hm hk hp hv hn]
  cases v <;> rfl

/-- A 32-bit member that has not been copied. -/
theorem reste32 (ms : List Membre) (hms : ∀ m ∈ ms, 0 < m.align) (vs : List ℕ) (b src : Octets) (n k p : ℕ) (v : BitVec 32) (hk : ms[k]? = some m32) (hp : (positions 0 ms)[k]? = some p) (hv : vs[k]? = some v.toNat) (hn : n ≤ p) :
    lit32 (memcpy n src (objet 0 ms vs b)) p = v := by
  apply lit32_octets
  intro j hj
  unfold memcpy
  rw [if_neg (by omega)]
  exact octet_objet ms hms 0 vs b k p m32 v.toNat hk hp hv j hj

theorem resteBool (ms : List Membre) (hms : ∀ m ∈ ms, 0 < m.align) (vs : List ℕ) (b src : Octets) (n k p : ℕ) (v : Bool) (m : Membre) (hm : 0 < m.taille) (hk : ms[k]? = some m) (hp : (positions 0 ms)[k]? = some p) (hv : vs[k]? = some v.toNat) (hn : n ≤ p) :
    litBool (memcpy n src (objet 0 ms vs b)) p = some v := by
  apply litBool_octet
  unfold memcpy
  rw [if_neg (by omega)]
  have := octet_objet ms hms 0 vs b k p m v.toNat hk hp hv 0 hm
  rw [Nat.add_zero, pow_zero, Nat.div_one] at this
  rw [this]
  cases v <;> rfl

/-- **C200 (exact behaviour).** What the demodulator reads, whatever the configuration and the padding bytes: the architecture and the two clock settings are transmitted; every following setting is read from the bytes of another one. -/
theorem C200_exact (c : DemodEn) (b b' : Octets) : let f := c.fr b b'
    (f.architecture = c.architecture ∧ f.horActif = some c.horActif ∧ f.horTc = c.horTc) ∧
    (f.horDegre = c.portBL ∧ f.portActif = octetBool (c.portEta.toNat % 256) ∧ f.portBL = c.rssiGrossier ∧ f.portEta = c.rssiFin) ∧
    (f.cagActif = some c.nHorActif ∧ f.cagTc = c.nHorTed ∧ f.faActif = octetBool (c.nHorTc.toNat % 256)) ∧
    (f.rssiGrossier = c.nHorItrp ∧ f.rssiFin = c.nHorDegre ∧ f.nHorActif = some c.nPortActif ∧ f.nHorTed = c.nPortPed ∧ f.nHorTc = c.nPortBL ∧ f.nHorItrp = c.nPortEta) ∧
    (f.nPortActif = some true ∧ f.nPortPed = 0 ∧ f.nPortBL = 0x3C23D70A ∧ f.nPortEta = 0x3F800000 ∧ f.debug = some false) ∧
    f.horItrp.toNat % 256 = c.portActif.toNat := by
  have hs : sizeOf membresEn = 72 := positions_en.2
  have he := positions_en.1
  have hf := positions_fr.1
  intro f
  have C32 : ∀ (k p : ℕ) (v : BitVec 32), membresEn[k]? = some m32 → (positions 0 membresEn)[k]? = some p → c.valeurs[k]? = some v.toNat → p + 4 ≤ 72 → lit32 (memcpy (sizeOf membresEn) (objet 0 membresEn c.valeurs b) (objet 0 membresFr defautFr b')) p = v :=
    fun k p v h1 h2 h3 h4 => copie32 membresEn align_en c.valeurs b _ _ k p v h1 h2 h3 (by rw [hs]; exact h4)
  have CB : ∀ (k p : ℕ) (v : Bool) (m : Membre), 0 < m.taille → membresEn[k]? = some m → (positions 0 membresEn)[k]? = some p → c.valeurs[k]? = some v.toNat → p + 1 ≤ 72 → litBool (memcpy (sizeOf membresEn) (objet 0 membresEn c.valeurs b) (objet 0 membresFr defautFr b')) p = some v :=
    fun k p v m h0 h1 h2 h3 h4 => copieBool membresEn align_en c.valeurs b _ _ k p v m h0 h1 h2 h3 (by rw [hs]; exact h4)
  have CO : ∀ (k p v : ℕ) (m : Membre), 0 < m.taille → membresEn[k]? = some m → (positions 0 membresEn)[k]? = some p → c.valeurs[k]? = some v → p + 1 ≤ 72 → memcpy (sizeOf membresEn) (objet 0 membresEn c.valeurs b) (objet 0 membresFr defautFr b') p = v % 256 :=
    fun k p v m h0 h1 h2 h3 h4 => copieOctet membresEn align_en c.valeurs b _ _ k p v m h0 h1 h2 h3 (by rw [hs]; exact h4)
  have R32 : ∀ (k p : ℕ) (v : BitVec 32), membresFr[k]? = some m32 → (positions 0 membresFr)[k]? = some p → defautFr[k]? = some v.toNat → 72 ≤ p → lit32 (memcpy (sizeOf membresEn) (objet 0 membresEn c.valeurs b) (objet 0 membresFr defautFr b')) p = v :=
    fun k p v h1 h2 h3 h4 => reste32 membresFr align_fr defautFr b' _ _ k p v h1 h2 h3 (by rw [hs]; exact h4)
  have RB : ∀ (k p : ℕ) (v : Bool) (m : Membre), 0 < m.taille → membresFr[k]? = some m → (positions 0 membresFr)[k]? = some p → defautFr[k]? = some v.toNat → 72 ≤ p → litBool (memcpy (sizeOf membresEn) (objet 0 membresEn c.valeurs b) (objet 0 membresFr defautFr b')) p = some v :=
    fun k p v m h0 h1 h2 h3 h4 => resteBool membresFr align_fr defautFr b' _ _ k p v m h0 h1 h2 h3 (by rw [hs]; exact h4)
  rw [he] at C32 CB CO
  rw [hf] at R32 RB
  refine ⟨⟨C32 0 0 _ rfl rfl rfl (by norm_num), CB 1 4 _ mBool4 (by decide) rfl rfl rfl (by norm_num), C32 2 8 _ rfl rfl rfl (by norm_num)⟩,
    ⟨C32 4 16 _ rfl rfl rfl (by norm_num), ?_, C32 6 24 _ rfl rfl rfl (by norm_num), C32 7 28 _ rfl rfl rfl (by norm_num)⟩,
    ⟨CB 8 32 _ mBool4 (by decide) rfl rfl rfl (by norm_num), C32 10 36 _ rfl rfl rfl (by norm_num), ?_⟩,
    ⟨C32 12 44 _ rfl rfl rfl (by norm_num), C32 13 48 _ rfl rfl rfl (by norm_num), CB 14 52 _ mBool4 (by decide) rfl rfl rfl (by norm_num), C32 15 56 _ rfl rfl rfl (by norm_num), C32 16 60 _ rfl rfl rfl (by norm_num), C32 17 64 _ rfl rfl rfl (by norm_num)⟩,
    ⟨RB 19 72 true mBool4 (by decide) rfl rfl rfl (by norm_num), R32 20 76 0 rfl rfl rfl (by norm_num), R32 21 80 0x3C23D70A rfl rfl rfl (by norm_num), R32 22 84 0x3F800000 rfl rfl rfl (by norm_num), RB 23 88 false mBool (by decide) rfl rfl rfl (by norm_num)⟩, ?_⟩
  · show litBool _ 20 = _
    unfold litBool octetBool
    rw [CO 5 20 _ m32 (by decide) rfl rfl rfl (by norm_num)]
  · show litBool _ 40 = _
    unfold litBool octetBool
    rw [CO 11 40 _ m32 (by decide) rfl rfl rfl (by norm_num)]
  · show (lit32 _ 12).toNat % 256 = _
    have h := CO 3 12 _ mBool4 (by decide) rfl rfl rfl (by norm_num)
    unfold lit32 lit
    rw [h, BitVec.toNat_ofNat]
    have : c.portActif.toNat < 2 := by cases c.portActif <;> decide
    omega

/-- **C200, violated by the default configuration**: carrier recovery and matched filter, active by default, are off in the demodulator of the English API, whatever the padding bytes. -/
theorem C200_defaut_refute (b b' : Octets) : let f := DemodEn.defaut.fr b b'
    DemodEn.defaut.portActif = true ∧ f.portActif = some false ∧ f.faActif = some false ∧ flottant f.portBL = 10 ∧ flottant f.cagTc = 0 ∧ ¬ Transmis DemodEn.defaut f := by
  intro f
  obtain ⟨-, ⟨-, h1, h2, -⟩, ⟨-, h3, h4⟩, -⟩ := C200_exact DemodEn.defaut b b'
  have k1 : f.portActif = some false := h1
  refine ⟨rfl, k1, h4, ?_, ?_, fun t => ?_⟩
  · rw [show f.portBL = 0x41200000 from h2]
    show flottantN 0x41200000 = 10
    norm_num [flottantN]
  · rw [show f.cagTc = 0 from h3]
    show flottantN 0 = 0
    norm_num [flottantN]
  · have := t.porteuse.1
    rw [k1] at this
    cases this

/-- **C200, violated for every carrier setting**: activating the carrier recovery or changing its bandwidth changes neither the activation nor the bandwidth that the demodulator uses. -/
theorem C200_porteuse_refute (c : DemodEn) (b b' : Octets) (actif : Bool) (BL : BitVec 32) : let f := c.fr b b'
    let f' := ({ c with portActif := actif, portBL := BL } : DemodEn).fr b b'
    f'.portActif = f.portActif ∧ f'.portBL = f.portBL ∧ f'.portEta = f.portEta ∧ f'.horDegre = BL := by
  intro f f'
  obtain ⟨-, ⟨-, h1, h2, h3⟩, -⟩ := C200_exact c b b'
  obtain ⟨-, ⟨g0, g1, g2, g3⟩, -⟩ := C200_exact { c with portActif := actif, portBL := BL } b b'
  exact ⟨g1.trans h1.symm, g2.trans h2.symm, g3.trans h3.symm, g0⟩

/-- **C200, violated for the other architecture**: the carrier recovery of the demodulator without decision keeps its default settings, whatever the configuration. -/
theorem C200_sans_decision_refute (c : DemodEn) (b b' : Octets) : let f := c.fr b b'
    f.nPortActif = some true ∧ f.nPortPed = 0 ∧ flottant f.nPortEta = 1 ∧ |flottant f.nPortBL - 1 / 100| < 1 / 10 ^ 9 ∧ f.debug = some false := by
  intro f
  obtain ⟨-, -, -, -, ⟨h1, h2, h3, h4, h5⟩, -⟩ := C200_exact c b b'
  refine ⟨h1, h2, ?_, ?_, h5⟩
  · rw [show f.nPortEta = 0x3F800000 from h4]
    show flottantN 0x3F800000 = 1
    norm_num [flottantN]
  · rw [show f.nPortBL = 0x3C23D70A from h3]
    show |flottantN 0x3C23D70A - 1 / 100| < 1 / 10 ^ 9
    norm_num [flottantN, abs_lt]

/-- The patterns of the default values, read as single precision numbers. -/
example : flottant 0x42C80000 = 100 ∧ flottant 0x41200000 = 10 ∧ flottant 0x40400000 = 3 ∧ flottant 0x40A00000 = 5 := by
  refine ⟨show flottantN 0x42C80000 = 100 from ?_, show flottantN 0x41200000 = 10 from ?_, show flottantN 0x40400000 = 3 from ?_, show flottantN 0x40A00000 = 5 from ?_⟩ <;> norm_num [flottantN]

/-- Non-vacuity: settings of the English structure that do reach the demodulator. -/
example (b b' : Octets) : (({ DemodEn.defaut with horActif := false, horTc := 0x40400000 } : DemodEn).fr b b').horTc = 0x40400000 := (C200_exact _ b b').1.2.2

end Verif.Dsp
