/-
C35  WAV files round-trip.
C59  Opening any file terminates (refuted: a hostile block size).
C60  Blocks before the data are skipped.
-/
import Verif.Wav.Lemmas

namespace Wav

/-! ### Specification -/

/-- One call to the writer. -/
inductive Op where
  | flottants (x : List (BitVec 32))
  | entiers (x : List (BitVec 16))
  | complexes (x : List (BitVec 32 × BitVec 32))

/-- The call, on the model. -/
def Op.fait (w : Ecrivain) : Op → Option Ecrivain
  | .flottants x => ecrisF w x
  | .entiers x => ecrisI w x
  | .complexes x => ecrisC w x

/-- A history of calls. -/
def ecrit (w : Ecrivain) : List Op → Option Ecrivain
  | [] => some w
  | o :: r => (o.fait w).bind fun w' => ecrit w' r

/-- What the call asks to store: a sequence of values (real and imaginary parts in turn for
a complex signal), `int16_t` values being converted to `float`. -/
def Op.valeurs : Op → List (BitVec 32)
  | .flottants x => x
  | .entiers x => x.map flotDe
  | .complexes x => x.flatMap fun z => [z.1, z.2]

/-- All that the history asks to store. -/
def valeurs (h : List Op) : List (BitVec 32) := h.flatMap Op.valeurs

/-- The file obtained by opening, writing and closing. -/
def fichier (cfg : Config) (indet : ℕ) (h : List Op) : Option (List UInt8) :=
  (ecrit (init cfg) h).bind fun w => (ferme indet w).map (·.octets)

/-- A sequence of reads of the given sizes. -/
def lectures (l : Lecteur) : List ℕ → List (List (BitVec 32))
  | [] => []
  | n :: r => (lisFlottant l n).1 :: lectures (lisFlottant l n).2 r

/-- A sequence of raw 16-bit reads. -/
def lectures16 (l : Lecteur) : List ℕ → List (List (BitVec 16))
  | [] => []
  | n :: r => (lisDonnees l n).1 :: lectures16 (lisDonnees l n).2 r

/-- Consecutive slices of a list. -/
def tranches {α : Type} (x : List α) : List ℕ → List (List α)
  | [] => []
  | n :: r => x.take n :: tranches (x.drop n) r

/-- The reader announces the parameters of the file. -/
structure Annonce (cfg : Config) (total : ℕ) (l : Lecteur) : Prop where
  canaux : l.ent.ncanaux = cfg.ncanaux
  freq : (l.ent.freq : ℤ) = ⌊cfg.freq⌋
  nech : l.nech = (total / cfg.ncanaux : ℕ)
  pos : l.pos = 0

/-- Acceptable configurations: a number of channels that fits the field, a frequency such that
the two derived fields fit. -/
def ConfigOk (cfg : Config) : Prop :=
  1 ≤ cfg.ncanaux ∧ cfg.ncanaux ≤ 65535 ∧ 0 ≤ cfg.freq ∧ cfg.freq < 2 ^ 30

/-! ### Writer -/

theorem add_div_dvd {a b c : ℕ} (h : c ∣ a) : (a + b) / c = a / c + b / c := by
  rcases Nat.eq_zero_or_pos c with rfl | hc
  · simp
  · obtain ⟨q, rfl⟩ := h
    rw [Nat.mul_add_div hc, Nat.mul_div_cancel_left _ hc]

theorem fait_float (w : Ecrivain) (o : Op) (ho : w.ouvert = true) (hf : w.cfg.flottant = true)
    (hc : w.cfg.ncanaux ≠ 0) :
    o.fait w = some { w with
      octets := w.octets ++ octetsDe 4 (o.valeurs.map (·.toNat))
      pos := (w.pos + o.valeurs.length / w.cfg.ncanaux) % 2 ^ 32 } := by
  cases o with
  | flottants x =>
    simp [Op.fait, ecrisF, ho, hf, ecris32, avance, hc, Op.valeurs, octetsDe, List.flatMap_map]
  | entiers x =>
    simp [Op.fait, ecrisI, ho, hf, ecris32, avance, hc, Op.valeurs, octetsDe, List.flatMap_map]
  | complexes x =>
    simp only [Op.fait, ecrisC, ecrisF, ho, hf, ecris32, avance, hc, Op.valeurs, octetsDe,
      List.flatMap_map, if_true, if_false, Option.map_some]

theorem ecrit_float (h : List Op) (w : Ecrivain) (ho : w.ouvert = true)
    (hf : w.cfg.flottant = true) (hc : w.cfg.ncanaux ≠ 0)
    (hd : ∀ o ∈ h, w.cfg.ncanaux ∣ o.valeurs.length) (hp : w.pos < 2 ^ 32) :
    ecrit w h = some { w with
      octets := w.octets ++ octetsDe 4 ((valeurs h).map (·.toNat))
      pos := (w.pos + (valeurs h).length / w.cfg.ncanaux) % 2 ^ 32 } := by
  induction h generalizing w with
  | nil =>
    have : w.pos % 2 ^ 32 = w.pos := Nat.mod_eq_of_lt hp
    simp only [ecrit, valeurs, List.flatMap_nil, List.map_nil, octetsDe, List.append_nil,
      List.length_nil, Nat.zero_div, Nat.add_zero, this]
  | cons o r ih =>
    rw [ecrit, fait_float w o ho hf hc, Option.bind_some]
    refine (ih { w with
      octets := w.octets ++ octetsDe 4 (o.valeurs.map (·.toNat))
      pos := (w.pos + o.valeurs.length / w.cfg.ncanaux) % 2 ^ 32 } ho hf hc
      (fun p hp => hd p (by simp [hp])) (Nat.mod_lt _ (by norm_num))).trans ?_
    refine congrArg some ?_
    have hv : valeurs (o :: r) = o.valeurs ++ valeurs r := rfl
    have hdv : (valeurs (o :: r)).length / w.cfg.ncanaux
        = o.valeurs.length / w.cfg.ncanaux + (valeurs r).length / w.cfg.ncanaux := by
      rw [hv, List.length_append, add_div_dvd (hd o (by simp))]
    congr 1
    · rw [hv, List.map_append, octetsDe_append]; simp
    · simp only [hdv]; omega

theorem mapM_append' {α β : Type} (f : α → Option β) (x y : List α) :
    (x ++ y).mapM f = (x.mapM f).bind fun a => (y.mapM f).map fun b => a ++ b := by
  rw [List.mapM_append]
  cases x.mapM f <;> simp
  cases y.mapM f <;> simp

theorem mapM_length {α β : Type} (f : α → Option β) (x : List α) (y : List β)
    (h : x.mapM f = some y) : y.length = x.length := by
  induction x generalizing y with
  | nil => simp at h; subst h; rfl
  | cons a r ih =>
    simp only [List.mapM_cons] at h
    cases hfa : f a with
    | none => simp [hfa] at h
    | some b =>
      cases hr : r.mapM f with
      | none => simp [hfa, hr] at h
      | some c => simp [hfa, hr] at h; subst h; simp [ih c hr]

theorem mapM_flotDe (x : List (BitVec 16)) : (x.map flotDe).mapM entDe = some x := by
  induction x with
  | nil => rfl
  | cons a r ih => simp [List.mapM_cons, entDe_flotDe, ih]

theorem fait_16 (w : Ecrivain) (o : Op) (y : List (BitVec 16)) (ho : w.ouvert = true)
    (hf : w.cfg.flottant = false) (hc : w.cfg.ncanaux ≠ 0) (hy : o.valeurs.mapM entDe = some y) :
    o.fait w = some { w with
      octets := w.octets ++ octetsDe 2 (y.map (·.toNat))
      pos := (w.pos + y.length / w.cfg.ncanaux) % 2 ^ 32 } := by
  cases o with
  | flottants x =>
    have : x.mapM entDe = some y := hy
    simp [Op.fait, ecrisF, ho, hf, ecris16, avance, hc, octetsDe, List.flatMap_map, this]
  | entiers x =>
    have h2 := mapM_flotDe x
    have : x = y := by
      have h3 : (x.map flotDe).mapM entDe = some y := hy
      rw [h2] at h3; exact Option.some.inj h3
    subst this
    simp [Op.fait, ecrisI, ho, hf, ecris16, avance, hc, octetsDe, List.flatMap_map]
  | complexes x =>
    have : (x.flatMap fun z => [z.1, z.2]).mapM entDe = some y := hy
    simp only [Op.fait, ecrisC, ecrisF, ho, hf, ecris16, avance, hc, octetsDe,
      List.flatMap_map, if_true, if_false, Option.map_some, this, Option.bind_some,
      Bool.false_eq_true]

theorem ecrit_16 (h : List Op) (w : Ecrivain) (y : List (BitVec 16)) (ho : w.ouvert = true)
    (hf : w.cfg.flottant = false) (hc : w.cfg.ncanaux ≠ 0)
    (hd : ∀ o ∈ h, w.cfg.ncanaux ∣ o.valeurs.length) (hp : w.pos < 2 ^ 32)
    (hy : (valeurs h).mapM entDe = some y) :
    ecrit w h = some { w with
      octets := w.octets ++ octetsDe 2 (y.map (·.toNat))
      pos := (w.pos + y.length / w.cfg.ncanaux) % 2 ^ 32 } := by
  induction h generalizing w y with
  | nil =>
    have : w.pos % 2 ^ 32 = w.pos := Nat.mod_eq_of_lt hp
    have hy0 : y = [] := by simpa [valeurs] using hy.symm
    subst hy0
    simp only [ecrit, List.map_nil, octetsDe, List.flatMap_nil, List.append_nil,
      List.length_nil, Nat.zero_div, Nat.add_zero, this]
  | cons o r ih =>
    have hv : valeurs (o :: r) = o.valeurs ++ valeurs r := rfl
    rw [hv, mapM_append'] at hy
    cases h1 : o.valeurs.mapM entDe with
    | none => simp [h1] at hy
    | some a =>
      cases h2 : (valeurs r).mapM entDe with
      | none => simp [h1, h2] at hy
      | some b =>
        simp [h1, h2] at hy
        subst hy
        rw [ecrit, fait_16 w o a ho hf hc h1, Option.bind_some]
        refine (ih { w with
          octets := w.octets ++ octetsDe 2 (a.map (·.toNat))
          pos := (w.pos + a.length / w.cfg.ncanaux) % 2 ^ 32 } b ho hf hc
          (fun p hp => hd p (by simp [hp])) (Nat.mod_lt _ (by norm_num)) h2).trans ?_
        refine congrArg some ?_
        have hda : w.cfg.ncanaux ∣ a.length := by
          rw [mapM_length _ _ _ h1]; exact hd o (by simp)
        have hdv : (a ++ b).length / w.cfg.ncanaux
            = a.length / w.cfg.ncanaux + b.length / w.cfg.ncanaux := by
          rw [List.length_append, add_div_dvd hda]
        congr 1
        · rw [List.map_append, octetsDe_append]; simp
        · simp only [hdv]; omega

theorem versU32_ok (q : ℚ) (h0 : 0 ≤ q) (h1 : q < 2 ^ 32) : versU32 q = some ⌊q⌋.toNat := by
  simp [versU32, h0, h1]

/-- Closing a file whose content is `44 zero bytes ++ d`. -/
theorem ferme_eq (w : Ecrivain) (indet : ℕ) (d : List UInt8) (ho : w.ouvert = true)
    (hw : w.octets = List.replicate 44 0 ++ d) (h0 : 0 ≤ w.cfg.freq) (h1 : w.cfg.freq < 2 ^ 30) :
    (ferme indet w).map (·.octets) = some (entete w.cfg indet ⌊w.cfg.freq⌋.toNat
      ⌊w.cfg.freq * octetsParEch w.cfg.flottant⌋.toNat
      (w.pos * octetsParEch w.cfg.flottant * w.cfg.ncanaux) ++ d) := by
  have hk : (octetsParEch w.cfg.flottant : ℚ) ≤ 4 ∧ (0 : ℚ) ≤ octetsParEch w.cfg.flottant := by
    unfold octetsParEch; split <;> norm_num
  have h2 : w.cfg.freq * octetsParEch w.cfg.flottant < 2 ^ 32 := by nlinarith
  have h3 : 0 ≤ w.cfg.freq * octetsParEch w.cfg.flottant := mul_nonneg h0 hk.2
  have hdrop : w.octets.drop 44 = d := by
    rw [hw, List.drop_append_of_le_length (by simp)]; simp
  unfold ferme
  rw [if_pos ho, versU32_ok _ h0 (by linarith), versU32_ok _ h3 h2]
  simp [hdrop]

/-! ### Reader -/

/-- Opening a file whose header is the one `ferme` writes. -/
theorem charge_entete (cfg : Config) (indet fr bps k m : ℕ) (d : List UInt8)
    (hc : 1 ≤ cfg.ncanaux) (hc' : cfg.ncanaux ≤ 65535) :
    charge (k + 1) (entete cfg indet fr bps m ++ d) = some (.ok {
      fichier := entete cfg indet fr bps m ++ d
      ent := { format := if cfg.flottant then 3 else 1, ncanaux := cfg.ncanaux, freq := fr % 2 ^ 32,
               bits := octetsParEch cfg.flottant * 8 }
      ptr := 44, fin := false, pos := 0
      nech := versInt ((8 * (m % 2 ^ 32)) % 2 ^ 32 /
        (octetsParEch cfg.flottant * 8 * cfg.ncanaux)) }) := by
  obtain ⟨h1, h2, h3, h4, -, -, h7, h8, h9⟩ := entete_champs cfg indet fr bps m d
  have hl : ¬ (entete cfg indet fr bps m ++ d).length < 44 := by
    rw [List.length_append, entete_length]; omega
  have hk : octetsParEch cfg.flottant ≤ 4 ∧ 2 ≤ octetsParEch cfg.flottant := by
    unfold octetsParEch; split <;> norm_num
  have hn : ¬ (octetsParEch cfg.flottant * 8 * cfg.ncanaux = 0 ∨
      2 ^ 31 ≤ octetsParEch cfg.flottant * 8 * cfg.ncanaux) := by
    rintro (h | h)
    · rcases Nat.mul_eq_zero.1 h with h | h <;> omega
    · have : octetsParEch cfg.flottant * 8 * cfg.ncanaux ≤ 32 * 65535 :=
        Nat.mul_le_mul (by omega) hc'
      omega
  unfold charge
  rw [if_neg hl, if_neg (by rw [h1]; simp)]
  unfold boucle
  simp only [tour, h8, if_true, ouvre, calculeNech, lisEntete, h2, h3, h4, h7, h9,
    Nat.mod_eq_of_lt (show cfg.ncanaux < 65536 by omega), hn, if_false]

theorem nech_eq (k c n : ℕ) (hk : 0 < k) (hc : 0 < c) (hn : 8 * (k * n) < 2 ^ 32) (hd : c ∣ n)
    (hk2 : 2 ≤ k) :
    versInt ((8 * ((n / c) * k * c % 2 ^ 32)) % 2 ^ 32 / (k * 8 * c)) = (n / c : ℕ) := by
  obtain ⟨q, rfl⟩ := hd
  have h1 : c * q / c = q := Nat.mul_div_cancel_left q hc
  rw [h1]
  have e : q * k * c = k * (c * q) := by ring
  rw [e, Nat.mod_eq_of_lt (a := k * (c * q)) (by omega), Nat.mod_eq_of_lt hn]
  have e2 : 8 * (k * (c * q)) = k * 8 * c * q := by ring
  rw [e2, Nat.mul_div_cancel_left q (by positivity)]
  have hq : q < 2 ^ 31 := by
    have : 16 * q ≤ 8 * (k * (c * q)) := by
      have h3 : 1 * q ≤ c * q := Nat.mul_le_mul_right q hc
      have h4 : 2 * (c * q) ≤ k * (c * q) := Nat.mul_le_mul_right _ hk2
      omega
    omega
  unfold versInt
  rw [BitVec.toInt_eq_toNat_of_lt, BitVec.toNat_ofNat, Nat.mod_eq_of_lt (by omega)]
  rw [BitVec.toNat_ofNat, Nat.mod_eq_of_lt (by omega)]; omega

/-- Reading at a place where only whole words remain. -/
theorem fread_eq (l : Lecteur) (k n : ℕ) (hk : 0 < k) (x : List ℕ) (hx : ∀ v ∈ x, v < 256 ^ k)
    (h : l.fichier.drop l.ptr = octetsDe k x) :
    (fread l k n).1 = x.take n ∧
    (fread l k n).2.fichier.drop (fread l k n).2.ptr = octetsDe k (x.drop n) ∧
    (fread l k n).2.ent = l.ent := by
  refine ⟨?_, ?_, rfl⟩
  · simp only [fread, h]; exact elements_octetsDe k hk n x hx
  · simp only [fread]
    rw [← List.drop_drop, h, octetsDe_drop]

theorem lectures_float (l : Lecteur) (ns : List ℕ) (x : List (BitVec 32)) (hf : l.ent.format ≠ 1)
    (h : l.fichier.drop l.ptr = octetsDe 4 (x.map (·.toNat))) :
    lectures l ns = tranches x ns := by
  induction ns generalizing l x with
  | nil => rfl
  | cons n r ih =>
    have hx : ∀ v ∈ x.map (·.toNat), v < 256 ^ 4 := by
      intro v hv
      obtain ⟨b, -, rfl⟩ := List.mem_map.1 hv
      have := b.isLt; norm_num at *; omega
    obtain ⟨h1, h2, h3⟩ := fread_eq l 4 n (by norm_num) _ hx h
    have e1 : (lisFlottant l n).1 = x.take n := by
      simp only [lisFlottant, hf, if_false, h1]
      rw [← List.map_take, List.map_map]
      have : (BitVec.ofNat 32 ∘ fun v : BitVec 32 => v.toNat) = id := by
        funext v; simp
      rw [this, List.map_id]
    have e2 : (lisFlottant l n).2 = (fread l 4 n).2 := by simp only [lisFlottant, hf, if_false]
    rw [lectures, tranches, e1, e2, ih _ (x.drop n) (by rw [h3]; exact hf)
      (by rw [h2, List.map_drop])]

theorem lisDonnees_eq (l : Lecteur) (n : ℕ) (y : List (BitVec 16))
    (h : l.fichier.drop l.ptr = octetsDe 2 (y.map (·.toNat))) :
    (lisDonnees l n).1 = y.take n ∧
    (lisDonnees l n).2.fichier.drop (lisDonnees l n).2.ptr
      = octetsDe 2 ((y.drop n).map (·.toNat)) ∧
    (lisDonnees l n).2.ent = l.ent := by
  have hx : ∀ v ∈ y.map (·.toNat), v < 256 ^ 2 := by
    intro v hv
    obtain ⟨b, -, rfl⟩ := List.mem_map.1 hv
    have := b.isLt; norm_num at *; omega
  obtain ⟨h1, h2, h3⟩ := fread_eq l 2 n (by norm_num) _ hx h
  refine ⟨?_, ?_, h3⟩
  · simp only [lisDonnees, h1]
    rw [← List.map_take, List.map_map]
    have : (BitVec.ofNat 16 ∘ fun v : BitVec 16 => v.toNat) = id := by
      funext v; simp
    rw [this, List.map_id]
  · simp only [lisDonnees]; rw [h2, List.map_drop]

theorem lectures16_eq (l : Lecteur) (ns : List ℕ) (y : List (BitVec 16))
    (h : l.fichier.drop l.ptr = octetsDe 2 (y.map (·.toNat))) :
    lectures16 l ns = tranches y ns := by
  induction ns generalizing l y with
  | nil => rfl
  | cons n r ih =>
    obtain ⟨h1, h2, -⟩ := lisDonnees_eq l n y h
    rw [lectures16, tranches, h1, ih _ (y.drop n) h2]

theorem lectures_16 (l : Lecteur) (ns : List ℕ) (y : List (BitVec 16)) (hf : l.ent.format = 1)
    (h : l.fichier.drop l.ptr = octetsDe 2 (y.map (·.toNat))) :
    lectures l ns = tranches (y.map flotDe) ns := by
  induction ns generalizing l y with
  | nil => rfl
  | cons n r ih =>
    obtain ⟨h1, h2, h3⟩ := lisDonnees_eq l n y h
    have e1 : (lisFlottant l n).1 = (y.map flotDe).take n := by
      simp only [lisFlottant, hf, if_true, h1, List.map_take]
    have e2 : (lisFlottant l n).2 = (lisDonnees l n).2 := by simp only [lisFlottant, hf, if_true]
    rw [lectures, tranches, e1, e2, ih _ (y.drop n) (by rw [h3]; exact hf) h2, List.map_drop]

/-! ### C35 -/

/-- **C35 (float files).**  Whatever the history of writes (floats, integers, complex signals;
each call storing a whole number of frames) and its size (less than 2^29 bytes of data), the file
reopens with the same number of channels, frequency and number of samples per channel, and any
sequence of reads delivers the consecutive slices of exactly what was written, bit for bit; also
after a `redemarre`. -/
theorem C35_flottant (cfg : Config) (indet : ℕ) (h : List Op) (hok : ConfigOk cfg)
    (hf : cfg.flottant = true) (hd : ∀ o ∈ h, cfg.ncanaux ∣ o.valeurs.length)
    (ht : 4 * (valeurs h).length < 2 ^ 29) :
    ∃ f l, fichier cfg indet h = some f ∧ charge 1 f = some (.ok l) ∧
      Annonce cfg (valeurs h).length l ∧
      (∀ ns, lectures l ns = tranches (valeurs h) ns) ∧
      (∀ n ns, lectures (redemarre (lisFlottant l n).2) ns = tranches (valeurs h) ns) := by
  obtain ⟨hc1, hc2, hf0, hf1⟩ := hok
  have hdt : cfg.ncanaux ∣ (valeurs h).length := by
    clear ht
    induction h with
    | nil => simp [valeurs]
    | cons o r ih =>
      have hv : valeurs (o :: r) = o.valeurs ++ valeurs r := rfl
      rw [hv, List.length_append]
      exact Nat.dvd_add (hd o (by simp)) (ih fun p hp => hd p (by simp [hp]))
  have hw := ecrit_float h (init cfg) rfl hf (by show cfg.ncanaux ≠ 0; omega) hd
    (by show 0 < 2 ^ 32; norm_num)
  have hw' := ferme_eq _ indet _ (show ({ (init cfg) with
      octets := (init cfg).octets ++ octetsDe 4 ((valeurs h).map (·.toNat))
      pos := ((init cfg).pos + (valeurs h).length / (init cfg).cfg.ncanaux) % 2 ^ 32 }
        : Ecrivain).ouvert = true from rfl) rfl hf0 hf1
  have hq : ((init cfg).pos + (valeurs h).length / (init cfg).cfg.ncanaux) % 2 ^ 32
      = (valeurs h).length / cfg.ncanaux := by
    show (0 + (valeurs h).length / cfg.ncanaux) % 2 ^ 32 = _
    rw [Nat.zero_add, Nat.mod_eq_of_lt]
    exact lt_of_le_of_lt (Nat.div_le_self _ _) (by omega)
  simp only [hq] at hw' hw
  have hk : octetsParEch cfg.flottant = 4 := by simp [octetsParEch, hf]
  set f := entete cfg indet ⌊cfg.freq⌋.toNat ⌊cfg.freq * octetsParEch cfg.flottant⌋.toNat
      ((valeurs h).length / cfg.ncanaux * octetsParEch cfg.flottant * cfg.ncanaux)
      ++ octetsDe 4 ((valeurs h).map (·.toNat)) with hfd
  have hch := charge_entete cfg indet ⌊cfg.freq⌋.toNat
    ⌊cfg.freq * octetsParEch cfg.flottant⌋.toNat 0
    ((valeurs h).length / cfg.ncanaux * octetsParEch cfg.flottant * cfg.ncanaux)
    (octetsDe 4 ((valeurs h).map (·.toNat))) hc1 hc2
  rw [← hfd] at hch
  have hdrop : f.drop 44 = octetsDe 4 ((valeurs h).map (·.toNat)) := by
    rw [hfd, List.drop_append_of_le_length (by rw [entete_length]),
      List.drop_of_length_le (by rw [entete_length]), List.nil_append]
  have hfl : ((⌊cfg.freq⌋.toNat : ℕ) : ℤ) = ⌊cfg.freq⌋ := Int.toNat_of_nonneg (Int.floor_nonneg.2 hf0)
  have hfl2 : ⌊cfg.freq⌋.toNat < 2 ^ 32 := by
    have : ⌊cfg.freq⌋ < 2 ^ 30 := Int.floor_lt.2 (by push_cast; linarith)
    omega
  refine ⟨f, _, ?_, hch, ⟨rfl, ?_, ?_, rfl⟩, ?_, ?_⟩
  · unfold fichier
    rw [hw, Option.bind_some]
    exact hw'
  · simp only []; rw [Nat.mod_eq_of_lt hfl2]; exact hfl
  · simp only [hk]
    exact nech_eq 4 cfg.ncanaux _ (by norm_num) (by omega) (by omega) hdt (by norm_num)
  · intro ns
    exact lectures_float _ ns _ (by simp [hf]) hdrop
  · intro n ns
    refine lectures_float _ ns _ ?_ ?_
    · simp [redemarre, lisFlottant, fread, hf]
    · simp only [redemarre, lisFlottant, fread, hf, if_true]; simpa using hdrop

/-- **C35 (16-bit files).**  Same, the values being those truncated to 16-bit integers by the
writer, provided they fit. -/
theorem C35_pcm16 (cfg : Config) (indet : ℕ) (h : List Op) (y : List (BitVec 16))
    (hok : ConfigOk cfg)
    (hf : cfg.flottant = false) (hd : ∀ o ∈ h, cfg.ncanaux ∣ o.valeurs.length)
    (hy : (valeurs h).mapM entDe = some y) (ht : 2 * (valeurs h).length < 2 ^ 29) :
    ∃ f l, fichier cfg indet h = some f ∧ charge 1 f = some (.ok l) ∧
      Annonce cfg (valeurs h).length l ∧
      (∀ ns, lectures16 l ns = tranches y ns) ∧
      (∀ ns, lectures l ns = tranches (y.map flotDe) ns) ∧
      (∀ n ns, lectures (redemarre (lisFlottant l n).2) ns = tranches (y.map flotDe) ns) := by
  obtain ⟨hc1, hc2, hf0, hf1⟩ := hok
  have hdt : cfg.ncanaux ∣ (valeurs h).length := by
    clear ht hy
    induction h with
    | nil => simp [valeurs]
    | cons o r ih =>
      have hv : valeurs (o :: r) = o.valeurs ++ valeurs r := rfl
      rw [hv, List.length_append]
      exact Nat.dvd_add (hd o (by simp)) (ih fun p hp => hd p (by simp [hp]))
  have hw := ecrit_16 h (init cfg) y rfl hf (by show cfg.ncanaux ≠ 0; omega) hd
    (by show 0 < 2 ^ 32; norm_num) hy
  have hlen : y.length = (valeurs h).length := mapM_length _ _ _ hy
  have hw' := ferme_eq _ indet _ (show ({ (init cfg) with
      octets := (init cfg).octets ++ octetsDe 2 (y.map (·.toNat))
      pos := ((init cfg).pos + y.length / (init cfg).cfg.ncanaux) % 2 ^ 32 }
        : Ecrivain).ouvert = true from rfl) rfl hf0 hf1
  have hq : ((init cfg).pos + y.length / (init cfg).cfg.ncanaux) % 2 ^ 32
      = (valeurs h).length / cfg.ncanaux := by
    show (0 + y.length / cfg.ncanaux) % 2 ^ 32 = _
    rw [Nat.zero_add, hlen, Nat.mod_eq_of_lt]
    exact lt_of_le_of_lt (Nat.div_le_self _ _) (by omega)
  simp only [hq] at hw' hw
  have hk : octetsParEch cfg.flottant = 2 := by simp [octetsParEch, hf]
  set f := entete cfg indet ⌊cfg.freq⌋.toNat ⌊cfg.freq * octetsParEch cfg.flottant⌋.toNat
      ((valeurs h).length / cfg.ncanaux * octetsParEch cfg.flottant * cfg.ncanaux)
      ++ octetsDe 2 (y.map (·.toNat)) with hfd
  have hch := charge_entete cfg indet ⌊cfg.freq⌋.toNat
    ⌊cfg.freq * octetsParEch cfg.flottant⌋.toNat 0
    ((valeurs h).length / cfg.ncanaux * octetsParEch cfg.flottant * cfg.ncanaux)
    (octetsDe 2 (y.map (·.toNat))) hc1 hc2
  rw [← hfd] at hch
  have hdrop : f.drop 44 = octetsDe 2 (y.map (·.toNat)) := by
    rw [hfd, List.drop_append_of_le_length (by rw [entete_length]),
      List.drop_of_length_le (by rw [entete_length]), List.nil_append]
  have hfl : ((⌊cfg.freq⌋.toNat : ℕ) : ℤ) = ⌊cfg.freq⌋ := Int.toNat_of_nonneg (Int.floor_nonneg.2 hf0)
  have hfl2 : ⌊cfg.freq⌋.toNat < 2 ^ 32 := by
    have : ⌊cfg.freq⌋ < 2 ^ 30 := Int.floor_lt.2 (by push_cast; linarith)
    omega
  refine ⟨f, _, ?_, hch, ⟨rfl, ?_, ?_, rfl⟩, ?_, ?_, ?_⟩
  · unfold fichier
    rw [hw, Option.bind_some]
    exact hw'
  · simp only []; rw [Nat.mod_eq_of_lt hfl2]; exact hfl
  · simp only [hk]
    exact nech_eq 2 cfg.ncanaux _ (by norm_num) (by omega) (by omega) hdt (by norm_num)
  · intro ns
    exact lectures16_eq _ ns _ hdrop
  · intro ns
    exact lectures_16 _ ns _ (by simp [hf]) hdrop
  · intro n ns
    refine lectures_16 _ ns _ ?_ ?_
    · simp [redemarre, lisFlottant, lisDonnees, fread, hf]
    · simp only [redemarre, lisFlottant, lisDonnees, fread, hf]; simpa using hdrop

/-- Non-vacuity: a stereo history of three calls of different kinds. -/
example : ConfigOk ⟨2, 44100, true⟩ ∧
    (∀ o ∈ [Op.flottants [0x3f800000#32, 0#32], .entiers [3#16, -4#16],
      .complexes [(0x40000000#32, 0x3f000000#32)]],
      (⟨2, 44100, true⟩ : Config).ncanaux ∣ o.valeurs.length) := by
  refine ⟨⟨by norm_num, by norm_num, by norm_num, by norm_num⟩, ?_⟩
  intro o ho
  simp only [List.mem_cons, List.not_mem_nil, or_false] at ho
  rcases ho with rfl | rfl | rfl <;> exact ⟨1, rfl⟩

/-- Non-vacuity of the 16-bit case: integer samples always fit. -/
example (x : List (BitVec 16)) : (valeurs [Op.entiers x]).mapM entDe = some x := by
  simpa [valeurs, Op.valeurs] using mapM_flotDe x

/-- The conversions of the 16-bit case: the stored integer is the truncation of the float, and
reading it back as a float is exact. -/
theorem C35_conversions :
    (∀ v : BitVec 16, valF (flotDe v) = some (v.toInt : ℚ)) ∧
    (∀ v : BitVec 16, entDe (flotDe v) = some v) ∧
    (∀ (b : BitVec 32) (v : BitVec 16), entDe b = some v →
      ∃ q, valF b = some q ∧ v.toInt = if 0 ≤ q then ⌊q⌋ else ⌈q⌉) := by
  refine ⟨valF_flotDe, entDe_flotDe, ?_⟩
  intro b v h
  unfold entDe at h
  cases hb : valF b with
  | none => simp [hb] at h
  | some q =>
    simp only [hb] at h
    split at h
    · rename_i hr
      refine ⟨q, rfl, ?_⟩
      have := Option.some.inj h
      subst this
      rw [BitVec.toInt_ofInt]
      have : Int.bmod (tronque q) (2 ^ 16) = tronque q := by
        apply Int.bmod_eq_of_le <;> norm_num <;> omega
      rw [this]; rfl
    · simp at h

theorem tranches_un {α : Type} (x : List α) : tranches x [x.length] = [x] := by
  simp [tranches]

theorem apparie_flatMap {α : Type} (x : List (α × α)) :
    apparie (x.flatMap fun z => [z.1, z.2]) = x := by
  induction x with
  | nil => rfl
  | cons z r ih =>
    show (z.1, z.2) :: apparie (r.flatMap fun z => [z.1, z.2]) = z :: r
    rw [ih]

/-- **C35 (convenience functions).**  `wav_charge` after `wav_enregistre` gives back the signal,
bit for bit, and the frequency truncated to an integer. -/
theorem C35_enregistre (fech : ℚ) (indet : ℕ) (x : List (BitVec 32)) (h0 : 0 ≤ fech)
    (h1 : fech < 2 ^ 30) (ht : 4 * x.length < 2 ^ 29) :
    ∃ f, enregistre indet fech x = some f ∧ wavCharge 1 f = some (some (x, ⌊fech⌋.toNat)) := by
  have hv : valeurs [Op.flottants x] = x := by simp [valeurs, Op.valeurs]
  obtain ⟨f, l, hf, hl, ha, hr, -⟩ := C35_flottant ⟨1, fech, true⟩ indet [.flottants x]
    ⟨le_refl 1, by norm_num, h0, h1⟩ rfl (by intro o _; exact Nat.one_dvd _) (by rw [hv]; exact ht)
  refine ⟨f, ?_, ?_⟩
  · rw [← hf]; simp [fichier, ecrit, Op.fait, enregistre]
  · have hn : l.nech = (x.length : ℕ) := by
      rw [ha.nech, hv]; simp
    have hfr : l.ent.freq = ⌊fech⌋.toNat := by have := ha.freq; simp only at this; omega
    have := hr [x.length]
    rw [hv, tranches_un, lectures, lectures] at this
    unfold wavCharge
    rw [hl]
    simp only [Option.map_some, hn, hfr, Int.toNat_natCast, Int.natCast_nonneg, if_true,
      List.head_eq_of_cons_eq this]

/-- **C35 (stereo).**  `wav_charge_stereo` after `wav_enregistre_stereo`. -/
theorem C35_enregistre_stereo (fech : ℚ) (indet : ℕ) (x : List (BitVec 32 × BitVec 32))
    (h0 : 0 ≤ fech) (h1 : fech < 2 ^ 30) (ht : 8 * x.length < 2 ^ 29) :
    ∃ f, enregistreStereo indet fech x = some f ∧
      wavChargeStereo 1 f = some (some (x, ⌊fech⌋.toNat)) := by
  have hv : valeurs [Op.complexes x] = x.flatMap fun z => [z.1, z.2] := by
    simp [valeurs, Op.valeurs]
  have hlen : (x.flatMap fun z => [z.1, z.2]).length = 2 * x.length := by
    induction x with
    | nil => rfl
    | cons z r ih =>
      rw [List.flatMap_cons, List.length_append, ih (by simp at ht; omega)
        (by simp [valeurs, Op.valeurs])]
      simp; omega
  obtain ⟨f, l, hf, hl, ha, hr, -⟩ := C35_flottant ⟨2, fech, true⟩ indet [.complexes x]
    ⟨by norm_num, by norm_num, h0, h1⟩ rfl
    (by
      intro o ho
      simp only [List.mem_cons, List.not_mem_nil, or_false] at ho
      subst ho
      exact ⟨x.length, hlen⟩) (by rw [hv, hlen]; omega)
  refine ⟨f, ?_, ?_⟩
  · rw [← hf]; simp [fichier, ecrit, Op.fait, enregistreStereo]
  · have hn : l.nech = (x.length : ℕ) := by
      rw [ha.nech, hv, hlen]; simp
    have hfr : l.ent.freq = ⌊fech⌋.toNat := by have := ha.freq; simp only at this; omega
    have := hr [2 * x.length]
    rw [hv, ← hlen, tranches_un, lectures, lectures] at this
    unfold wavChargeStereo
    rw [hl]
    simp only [Option.map_some, hn, hfr, Int.toNat_natCast, Int.natCast_nonneg, if_true]
    rw [← hlen, List.head_eq_of_cons_eq this, apparie_flatMap]

/-- **C35 refuted beyond its hypotheses (1): chunking.**  In a stereo file written sample by
sample (two calls of one value each), the reader finds no sample at all. -/
theorem C35_decoupage_refute (a b : BitVec 32) (indet : ℕ) :
    ∃ f l, fichier ⟨2, 8000, true⟩ indet [.flottants [a], .flottants [b]] = some f ∧
      charge 1 f = some (.ok l) ∧ l.nech = 0 := by
  set w : Ecrivain := { cfg := ⟨2, 8000, true⟩, ouvert := true
                        octets := List.replicate 44 0 ++ (le 4 a.toNat ++ le 4 b.toNat)
                        pos := 0 } with hwd
  have hw : ecrit (init ⟨2, 8000, true⟩) [.flottants [a], .flottants [b]] = some w := by
    simp [ecrit, Op.fait, ecrisF, ecris32, avance, init, hwd]
  have hw' := ferme_eq w indet _ rfl rfl (by norm_num [hwd]) (by norm_num [hwd])
  have hf : fichier ⟨2, 8000, true⟩ indet [.flottants [a], .flottants [b]]
      = (ferme indet w).map (·.octets) := by
    unfold fichier; rw [hw, Option.bind_some]
  rw [hw'] at hf
  refine ⟨_, _, hf, charge_entete ⟨2, 8000, true⟩ indet _ _ 0 _ _ (by norm_num) (by norm_num), ?_⟩
  simp [versInt, hwd]

/-- **C35 refuted beyond its hypotheses (2): size.**  A mono float signal of 2^27 samples
(512 MB) is reloaded as an empty signal. -/
theorem C35_taille_refute (indet : ℕ) (x : List (BitVec 32)) (hx : x.length = 2 ^ 27) :
    ∃ f, enregistre indet 48000 x = some f ∧ wavCharge 1 f = some (some ([], 48000)) := by
  set w : Ecrivain := { cfg := ⟨1, 48000, true⟩, ouvert := true
                        octets := List.replicate 44 0 ++ octetsDe 4 (x.map (·.toNat))
                        pos := 2 ^ 27 } with hwd
  have hw : ecrisF (init ⟨1, 48000, true⟩) x = some w := by
    simp [ecrisF, ecris32, avance, init, hwd, hx, octetsDe, List.flatMap_map]
  have hw' := ferme_eq w indet _ rfl rfl (by norm_num [hwd]) (by norm_num [hwd])
  have hf : enregistre indet 48000 x = (ferme indet w).map (·.octets) := by
    unfold enregistre; rw [hw, Option.bind_some]
  rw [hw'] at hf
  refine ⟨_, hf, ?_⟩
  unfold wavCharge
  rw [charge_entete ⟨1, 48000, true⟩ indet _ _ 0 _ _ (by norm_num) (by norm_num)]
  simp only [Option.map_some]
  have e : versInt (8 * (2 ^ 27 * octetsParEch true * 1 % 2 ^ 32) % 2 ^ 32 /
      (octetsParEch true * 8 * 1)) = 0 := by
    simp [octetsParEch, versInt]
  have e2 : ⌊(48000 : ℚ)⌋.toNat % 2 ^ 32 = 48000 := by
    rw [show (48000 : ℚ) = ((48000 : ℤ) : ℚ) by norm_num, Int.floor_intCast]; rfl
  simp only [hwd, e, e2]
  simp [lisFlottant, fread, elements]

/-- Non-vacuity: such signals exist. -/
example : ∃ x : List (BitVec 32), x.length = 2 ^ 27 := ⟨List.replicate _ 0, List.length_replicate⟩

/-- **C35 refuted (3): header of a stereo file.**  The standard asks byte_per_bloc (offset 32) to
be channels × bytes per sample and byte_per_sec (offset 28) to be frequency × byte_per_bloc; the
writer gives half of these for every stereo file. -/
theorem C35_entete_stereo_refute (flottant : Bool) (freq indet : ℕ) (h1 : freq < 2 ^ 30)
    (d : List UInt8) (w : Ecrivain) (hc : w.cfg = ⟨2, freq, flottant⟩) (ho : w.ouvert = true)
    (hw : w.octets = List.replicate 44 0 ++ d) :
    ∃ f, (ferme indet w).map (·.octets) = some f ∧
      2 * champ f 32 2 = 2 * octetsParEch flottant ∧
      2 * champ f 28 4 = freq * (2 * octetsParEch flottant) := by
  have hw' := ferme_eq w indet d ho hw (by rw [hc]; simp) (by rw [hc]; simp only []; exact_mod_cast h1)
  rw [hc] at hw'
  refine ⟨_, hw', ?_, ?_⟩
  · obtain ⟨-, -, -, -, -, h6, -⟩ := entete_champs ⟨2, freq, flottant⟩ indet ⌊(freq : ℚ)⌋.toNat
      ⌊(freq : ℚ) * octetsParEch flottant⌋.toNat (w.pos * octetsParEch flottant * 2) d
    rw [h6]
  · obtain ⟨-, -, -, -, h5, -⟩ := entete_champs ⟨2, freq, flottant⟩ indet ⌊(freq : ℚ)⌋.toNat
      ⌊(freq : ℚ) * octetsParEch flottant⌋.toNat (w.pos * octetsParEch flottant * 2) d
    rw [h5]
    have e : ⌊(freq : ℚ) * octetsParEch flottant⌋.toNat = freq * octetsParEch flottant := by
      rw [show (freq : ℚ) * octetsParEch flottant = ((freq * octetsParEch flottant : ℕ) : ℚ) by
        push_cast; rfl, Int.floor_natCast]; rfl
    have hk : octetsParEch flottant ≤ 4 := by unfold octetsParEch; split <;> norm_num
    have : freq * octetsParEch flottant < 2 ^ 32 := by
      calc freq * octetsParEch flottant ≤ freq * 4 := Nat.mul_le_mul_left _ hk
        _ < 2 ^ 32 := by omega
    rw [e, Nat.mod_eq_of_lt this]; ring

/-! ### Seeking -/

/-- **C35 (seek, mono 16-bit).**  In a mono 16-bit file, after `recherche` to sample `k` the reads
deliver the signal from sample `k` on. -/
theorem C35_recherche (cfg : Config) (indet fr bps m k : ℕ) (y : List (BitVec 16)) (ns : List ℕ)
    (hc : cfg.ncanaux = 1) (hf : cfg.flottant = false) :
    ∃ l, charge 1 (entete cfg indet fr bps m ++ octetsDe 2 (y.map (·.toNat))) = some (.ok l) ∧
      lectures16 (recherche l k) ns = tranches (y.drop k) ns ∧
      lectures (recherche l k) ns = tranches ((y.drop k).map flotDe) ns := by
  refine ⟨_, charge_entete cfg indet fr bps 0 m _ (by omega) (by omega), ?_⟩
  suffices h : ∀ l : Lecteur, l.fichier = entete cfg indet fr bps m ++ octetsDe 2 (y.map (·.toNat)) →
      (recherche l k).fichier.drop (recherche l k).ptr
        = octetsDe 2 ((y.drop k).map (·.toNat)) from
    ⟨lectures16_eq _ _ _ (h _ rfl), lectures_16 _ _ _ (by simp [recherche, hf]) (h _ rfl)⟩
  intro l hl
  simp only [recherche, hl]
  rw [Nat.add_comm, ← List.drop_drop, List.drop_left' (entete_length _ _ _ _ _), List.map_drop,
    ← octetsDe_drop, octetsDe_length]
  rcases Nat.le_total k (y.map (·.toNat)).length with h | h
  · rw [Nat.min_eq_right (Nat.mul_le_mul_left 2 h), Nat.mul_comm]
  · rw [Nat.min_eq_left (Nat.mul_le_mul_left 2 h),
      List.drop_of_length_le (by rw [octetsDe_length]; omega),
      List.drop_of_length_le (by rw [octetsDe_length])]

/-- **C35 refuted (4): seek in a float file.**  After `recherche` to sample 2 of a mono float
file, the first value read is sample number 1. -/
theorem C35_recherche_refute (indet fr bps m : ℕ) (a b c : BitVec 32) :
    ∃ l, charge 1 (entete ⟨1, 8000, true⟩ indet fr bps m
        ++ octetsDe 4 ([a, b, c].map (·.toNat))) = some (.ok l) ∧
      (lisFlottant (recherche l 2) 1).1 = [b] := by
  refine ⟨_, charge_entete ⟨1, 8000, true⟩ indet fr bps 0 m _ (by norm_num) (by norm_num), ?_⟩
  have key : ∀ l : Lecteur, l.ent.format = 3 → l.fichier = entete ⟨1, 8000, true⟩ indet fr bps m
        ++ octetsDe 4 ([a, b, c].map (·.toNat)) → (lisFlottant (recherche l 2) 1).1 = [b] := by
    intro l h3 hf
    have := lectures_float (recherche l 2) [1] [b, c] (by simp [recherche, h3]) (by
        simp only [recherche, hf]
        rw [Nat.add_comm, ← List.drop_drop, List.drop_left' (entete_length _ _ _ _ _)]
        have := octetsDe_drop 4 1 ([a, b, c].map (·.toNat))
        simpa [octetsDe_length] using this)
    exact List.head_eq_of_cons_eq this
  exact key _ rfl rfl

/-! ### C59: termination of the opening -/

theorem versInt_petit {n : ℕ} (h : n < 2 ^ 31) : versInt n = n := by
  unfold versInt
  rw [BitVec.toInt_eq_toNat_of_lt, BitVec.toNat_ofNat, Nat.mod_eq_of_lt (by omega)]
  rw [BitVec.toNat_ofNat, Nat.mod_eq_of_lt (by omega)]; omega

theorem saute_petit (f : List UInt8) (b : Bloc) (h : b.taille < 2 ^ 31 - 1) :
    saute f b = if b.ptr + (b.taille + b.taille % 2) + 8 ≤ f.length then
      .suite { id := champ f (b.ptr + (b.taille + b.taille % 2)) 4
               taille := champ f (b.ptr + (b.taille + b.taille % 2) + 4) 4
               ptr := b.ptr + (b.taille + b.taille % 2) + 8 }
      else .fini .erreur := by
  have hp : deplace b.ptr (if (b.taille : ℤ) % 2 = 0 then (b.taille : ℤ) else b.taille + 1)
      = b.ptr + (b.taille + b.taille % 2) := by
    unfold deplace; split <;> split <;> omega
  simp only [saute, versInt_petit (show b.taille < 2 ^ 31 by omega)]
  rw [if_neg (by omega), hp]

theorem boucle_termine (f : List UInt8) (e : Entete)
    (hf : ∀ p, champ f p 4 < 2 ^ 31 - 1) (k : ℕ) (b : Bloc) (hb : b.taille < 2 ^ 31 - 1)
    (hk : f.length < b.ptr + 8 * k) : ∃ i, boucle f e (k + 1) b = some i := by
  induction k generalizing b with
  | zero =>
    unfold boucle tour
    split
    · exact ⟨_, rfl⟩
    · rename_i b' h
      split at h
      · cases h
      · rw [saute_petit f b hb, if_neg (by omega)] at h; cases h
  | succ k ih =>
    unfold boucle
    cases h : tour f e b with
    | fini i => exact ⟨i, rfl⟩
    | suite b' =>
      simp only []
      unfold tour at h
      split at h
      · cases h
      · rw [saute_petit f b hb] at h
        split at h
        · cases h
          exact ih _ (hf _) (by simp only []; omega)
        · cases h

/-- **C59 (partial).**  Opening terminates, whatever the file, when no 4-byte field of it reads as
2^31 - 1 or more. Missing: the other files, for which it is false, see `C59_termine_refute`. -/
theorem C59_termine_partial (f : List UInt8) (hf : ∀ p, champ f p 4 < 2 ^ 31 - 1) :
    ∃ k i, charge k f = some i := by
  unfold charge
  split
  · exact ⟨0, _, rfl⟩
  · split
    · exact ⟨0, _, rfl⟩
    · obtain ⟨i, hi⟩ := boucle_termine f (lisEntete f) hf f.length
        { id := champ f 36 4, taille := champ f 40 4, ptr := 44 } (hf 40) (by simp only []; omega)
      exact ⟨_, i, hi⟩

/-- Non-vacuity: a file of zero bytes. -/
example (p : ℕ) : champ (List.replicate 60 0) p 4 < 2 ^ 31 - 1 := by
  have : ∀ n, unle (List.replicate n 0) = 0 := by
    intro n; induction n with
    | zero => rfl
    | succ n ih => simp [List.replicate_succ, unle, ih]
  unfold champ
  rw [List.drop_replicate, List.take_replicate, this]; norm_num

/-- **C59 refuted.**  A 44-byte file whose first block is unknown and announces 2^32 - 8 bytes:
the reader seeks 8 bytes backwards and reads the same block again, for ever. -/
theorem C59_termine_refute :
    ∃ f : List UInt8, f.length = 44 ∧ ∀ k, charge k f = none := by
  have hch := champs13 0x46464952 0 0 0 0 0 0 0 0 0 0 1 (2 ^ 32 - 8) [] _ rfl
  set f := le 4 0x46464952 ++ (le 4 0 ++ (le 4 0 ++ (le 4 0 ++ (le 4 0 ++ (le 2 0 ++ (le 2 0 ++
      (le 4 0 ++ (le 4 0 ++ (le 2 0 ++ (le 2 0 ++ (le 4 1 ++ (le 4 (2 ^ 32 - 8) ++ [])))))))))))) 
    with hf
  have hl : f.length = 44 := by simp [hf, le_length]
  obtain ⟨h1, -, -, -, -, -, -, h8, h9⟩ := hch
  refine ⟨f, hl, ?_⟩
  have h1' : champ f 0 4 = 0x46464952 := by rw [h1]; norm_num
  have h8' : champ f 36 4 = 1 := by rw [h8]; norm_num
  have h9' : champ f 40 4 = 2 ^ 32 - 8 := by rw [h9]; norm_num
  have hs : tour f (lisEntete f) { id := 1, taille := 2 ^ 32 - 8, ptr := 44 }
      = .suite { id := 1, taille := 2 ^ 32 - 8, ptr := 44 } := by
    have hv : versInt (2 ^ 32 - 8) = -8 := by decide
    have hd : deplace 44 (-8) = 36 := by decide
    unfold tour
    rw [if_neg (by norm_num)]
    have he : (if (-8 : ℤ) % 2 = 0 then (-8 : ℤ) else -8 + 1) = -8 := by decide
    unfold saute
    simp only [hv, he, hd, hl, h8', h9']
    rfl
  have hb : ∀ k, boucle f (lisEntete f) k { id := 1, taille := 2 ^ 32 - 8, ptr := 44 } = none := by
    intro k
    induction k with
    | zero => rfl
    | succ k ih => unfold boucle; rw [hs]; exact ih
  intro k
  unfold charge
  rw [if_neg (by omega), if_neg (by rw [h1']; simp), h8', h9']
  exact hb k

/-! ### C60: blocks before the data -/

/-- A block that is not the data: identifier and content, padded to an even size. -/
def blocOctets (b : ℕ × List UInt8) : List UInt8 :=
  le 4 b.1 ++ (le 4 b.2.length ++ (b.2 ++ List.replicate (b.2.length % 2) 0))

theorem blocOctets_length (b : ℕ × List UInt8) :
    (blocOctets b).length = 8 + (b.2.length + b.2.length % 2) := by
  simp [blocOctets, le_length]; omega

/-- The sequence of blocks before the data block. -/
def blocsOctets (bs : List (ℕ × List UInt8)) (data : List UInt8) : List UInt8 :=
  bs.flatMap blocOctets ++ (le 4 0x61746164 ++ (le 4 data.length ++ data))

/-- Acceptable blocks: an identifier of 4 bytes, not `data`, and fewer than 2^31 - 1 bytes. -/
def BlocOk (b : ℕ × List UInt8) : Prop :=
  b.1 < 2 ^ 32 ∧ b.1 ≠ 0x61746164 ∧ b.2.length < 2 ^ 31 - 1

theorem boucle_blocs (f : List UInt8) (e : Entete) (data : List UInt8)
    (hd : data.length < 2 ^ 32) (bs : List (ℕ × List UInt8)) (hbs : ∀ b ∈ bs, BlocOk b)
    (pre : List UInt8) (hf : f = pre ++ blocsOctets bs data) (k : ℕ) :
    boucle f e (bs.length + 1 + k)
      { id := champ f pre.length 4, taille := champ f (pre.length + 4) 4, ptr := pre.length + 8 }
    = some (ouvre f e { id := 0x61746164, taille := data.length
                        ptr := pre.length + (bs.flatMap blocOctets).length + 8 }) := by
  induction bs generalizing pre with
  | nil =>
    have h1 : champ f pre.length 4 = 0x61746164 := by
      rw [hf]
      unfold blocsOctets
      rw [List.flatMap_nil, List.nil_append, champ_milieu _ _ 4 _ _ rfl]; norm_num
    have h2 : champ f (pre.length + 4) 4 = data.length := by
      rw [hf]
      unfold blocsOctets
      rw [List.flatMap_nil, List.nil_append, ← List.append_assoc,
        champ_milieu _ _ 4 _ _ (by rw [List.length_append, le_length])]
      exact Nat.mod_eq_of_lt (by norm_num; omega)
    rw [List.length_nil, Nat.zero_add, Nat.add_comm 1 k]
    unfold boucle
    rw [h1, h2]
    simp [tour]
  | cons b r ih =>
    obtain ⟨ho1, ho2, ho3⟩ := hbs b (by simp)
    have hfe : f = pre ++ (le 4 b.1 ++ (le 4 b.2.length ++
        ((b.2 ++ List.replicate (b.2.length % 2) 0) ++ blocsOctets r data))) := by
      rw [hf]; simp only [blocsOctets, blocOctets, List.flatMap_cons, List.append_assoc]
    have hf2 : f = (pre ++ blocOctets b) ++ blocsOctets r data := by
      rw [hfe]; simp only [blocOctets, List.append_assoc]
    have h1 : champ f pre.length 4 = b.1 := by
      rw [hfe, champ_milieu _ _ 4 _ _ rfl]; exact Nat.mod_eq_of_lt (by norm_num; omega)
    have h2 : champ f (pre.length + 4) 4 = b.2.length := by
      rw [hfe, ← List.append_assoc,
        champ_milieu _ _ 4 _ _ (by rw [List.length_append, le_length])]
      exact Nat.mod_eq_of_lt (by norm_num; omega)
    have hlen : (pre ++ blocOctets b).length = pre.length + 8 + (b.2.length + b.2.length % 2) := by
      rw [List.length_append, blocOctets_length]; omega
    have hl2 : pre.length + 8 + (b.2.length + b.2.length % 2) + 8 ≤ f.length := by
      rw [hf2, List.length_append, hlen]
      simp [blocsOctets, le_length]; omega
    have := ih (fun c hc => hbs c (by simp [hc])) (pre ++ blocOctets b) hf2
    rw [hlen] at this
    rw [List.length_cons, show r.length + 1 + 1 + k = (r.length + 1 + k) + 1 by omega]
    unfold boucle
    rw [h1, h2]
    unfold tour
    rw [if_neg ho2, saute_petit _ _ ho3, if_pos hl2]
    simp only []
    rw [this]
    congr 3
    rw [List.flatMap_cons, List.length_append, blocOctets_length]; omega

/-- **C60.**  Any sequence of unknown blocks before the data block is skipped: the reader opens on
the data, with the parameters of the header, and reads start at the first sample (float format). -/
theorem C60_blocs (ent : List UInt8) (bs : List (ℕ × List UInt8)) (x : List (BitVec 32))
    (hent : ent.length = 36) (hriff : champ ent 0 4 = 0x46464952)
    (hfmt : champ ent 20 2 = 3) (hbits : champ ent 34 2 = 32) (hcan : 1 ≤ champ ent 22 2)
    (hbs : ∀ b ∈ bs, BlocOk b) (hx : 4 * x.length < 2 ^ 29) (hdiv : champ ent 22 2 ∣ x.length)
    (k : ℕ) :
    ∃ l, charge (bs.length + 1 + k)
        (ent ++ blocsOctets bs (octetsDe 4 (x.map (·.toNat)))) = some (.ok l) ∧
      l.ent.ncanaux = champ ent 22 2 ∧ l.ent.freq = champ ent 24 4 ∧
      l.nech = (x.length / champ ent 22 2 : ℕ) ∧
      ∀ ns, lectures l ns = tranches x ns := by
  have hdl : (octetsDe 4 (x.map (·.toNat))).length = 4 * x.length := by
    rw [octetsDe_length, List.length_map]
  set data := octetsDe 4 (x.map (·.toNat)) with hdata
  set f := ent ++ blocsOctets bs data with hf
  have hb := boucle_blocs f (lisEntete f) data (by omega) bs hbs ent hf k
  have hc0 : champ f 0 4 = 0x46464952 := by
    rw [hf, champ_append_left _ _ _ _ (by omega), hriff]
  have hc : ∀ o n, o + n ≤ 36 → champ f o n = champ ent o n := by
    intro o n h; rw [hf, champ_append_left _ _ _ _ (by omega)]
  have hl : ¬ f.length < 44 := by
    rw [hf, List.length_append, hent]; simp [blocsOctets, le_length]; omega
  rw [hent] at hb
  have hcan2 : champ ent 22 2 < 65536 := by
    unfold champ
    have : ∀ b : List UInt8, unle b < 256 ^ b.length := by
      intro b
      induction b with
      | nil => simp [unle]
      | cons a r ih =>
        have := a.toNat_lt
        simp only [unle, List.length_cons, pow_succ]; omega
    refine lt_of_lt_of_le (this _) ?_
    have h2 : ((ent.drop 22).take 2).length = 2 := by simp [hent]
    rw [h2]; norm_num
  have hcn : calculeNech (lisEntete f) data.length = some ((x.length / champ ent 22 2 : ℕ) : ℤ) := by
    have hn := nech_eq 4 (champ ent 22 2) x.length (by norm_num) (by omega) (by omega) hdiv
      (by norm_num)
    have e : x.length / champ ent 22 2 * 4 * champ ent 22 2 = 4 * x.length := by
      have := Nat.div_mul_cancel hdiv
      calc _ = 4 * (x.length / champ ent 22 2 * champ ent 22 2) := by ring
        _ = _ := by rw [this]
    rw [e, Nat.mod_eq_of_lt (a := 4 * x.length) (by omega)] at hn
    unfold calculeNech
    simp only [lisEntete, hc 34 2 (by omega), hc 22 2 (by omega), hbits, hdl]
    rw [if_neg (by omega), hn]
  have hfmt' : (lisEntete f).format ≠ 1 := by
    simp only [lisEntete, hc 20 2 (by omega), hfmt]; norm_num
  unfold charge
  rw [if_neg hl, if_neg (by rw [hc0]; simp), hb]
  unfold ouvre
  simp only [hcn]
  refine ⟨_, rfl, hc 22 2 (by omega), hc 24 4 (by omega), rfl, ?_⟩
  intro ns
  refine lectures_float _ ns x hfmt' ?_
  simp only []
  rw [hf]
  have : ent ++ blocsOctets bs data
      = (ent ++ bs.flatMap blocOctets ++ (le 4 0x61746164 ++ le 4 data.length)) ++ data := by
    simp only [blocsOctets, List.append_assoc]
  rw [this, List.drop_left' (by simp [hent, le_length]; omega)]

/-- Non-vacuity: a header, a `LIST` block of odd size, two mono samples. -/
example : BlocOk (0x5453494c, [1, 2, 3]) := by
  refine ⟨by norm_num, by norm_num, by simp⟩

theorem boucle_ok (f : List UInt8) (e : Entete) (k : ℕ) (b : Bloc) (l : Lecteur)
    (h : boucle f e k b = some (.ok l)) : l.fichier = f ∧ l.ent = e := by
  induction k generalizing b with
  | zero => simp [boucle] at h
  | succ k ih =>
    unfold boucle at h
    cases ht : tour f e b with
    | suite b' => rw [ht] at h; exact ih b' h
    | fini i =>
      rw [ht] at h
      simp only [Option.some.injEq] at h
      subst h
      unfold tour at ht
      split at ht
      · unfold ouvre at ht
        split at ht
        · cases ht
        · cases ht; exact ⟨rfl, rfl⟩
      · unfold saute at ht
        simp only [] at ht
        split at ht
        · cases ht
        · generalize deplace b.ptr _ = q at ht
          split at ht <;> cases ht

theorem charge_ok (k : ℕ) (f : List UInt8) (l : Lecteur) (h : charge k f = some (.ok l)) :
    l.fichier = f ∧ l.ent = lisEntete f := by
  unfold charge at h
  split at h
  · cases h
  · split at h
    · cases h
    · exact boucle_ok f _ k _ l h

/-- **C60 refuted for `redemarre`.**  On such a file, `redemarre` does not come back to the first
sample: it goes to byte 44, inside the skipped block. -/
theorem C60_redemarre_refute (ent : List UInt8) (x : BitVec 32) (c : ℕ) (hc : c < 2 ^ 32)
    (hent : ent.length = 36) (hriff : champ ent 0 4 = 0x46464952)
    (hfmt : champ ent 20 2 = 3) (hbits : champ ent 34 2 = 32) (hcan : champ ent 22 2 = 1) :
    ∃ l, charge 2 (ent ++ blocsOctets [(0x5453494c, le 4 c)] (octetsDe 4 ([x].map (·.toNat))))
        = some (.ok l) ∧
      (lisFlottant l 1).1 = [x] ∧ (lisFlottant (redemarre l) 1).1 = [BitVec.ofNat 32 c] := by
  obtain ⟨l, h1, -, -, -, h5⟩ := C60_blocs ent [(0x5453494c, le 4 c)] [x] hent hriff hfmt hbits
    (by omega) (by intro b hb; simp only [List.mem_cons, List.not_mem_nil, or_false] at hb
                   subst hb; exact ⟨by norm_num, by norm_num, by simp [le_length]⟩)
    (by norm_num) (by rw [hcan]; exact Nat.one_dvd _) 0
  obtain ⟨hfi, hen⟩ := charge_ok _ _ _ h1
  have hfm : l.ent.format ≠ 1 := by
    rw [hen]; simp only [lisEntete]
    rw [champ_append_left _ _ _ _ (by omega), hfmt]; norm_num
  refine ⟨l, h1, List.head_eq_of_cons_eq (h5 [1]), ?_⟩
  have hr : (redemarre l).fichier.drop (redemarre l).ptr = le 4 c ++
      (le 4 0x61746164 ++ (le 4 (octetsDe 4 ([x].map (·.toNat))).length
        ++ octetsDe 4 ([x].map (·.toNat)))) := by
    simp only [redemarre, hfi]
    rw [show ent ++ blocsOctets [(0x5453494c, le 4 c)] (octetsDe 4 ([x].map (·.toNat)))
      = (ent ++ (le 4 0x5453494c ++ le 4 (le 4 c).length)) ++ (le 4 c ++
      (le 4 0x61746164 ++ (le 4 (octetsDe 4 ([x].map (·.toNat))).length
        ++ octetsDe 4 ([x].map (·.toNat))))) by
        simp [blocsOctets, blocOctets, le_length]]
    rw [List.drop_left' (by simp [hent, le_length])]
  have hfm' : (redemarre l).ent.format ≠ 1 := hfm
  simp only [lisFlottant, hfm', if_false, fread, hr, elements]
  rw [if_neg (by simp [le_length]), List.take_left' (le_length 4 c), unle_le,
    Nat.mod_eq_of_lt (by norm_num; omega)]
  rfl

end Wav
