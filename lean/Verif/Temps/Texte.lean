import Verif.Temps.Props
import Mathlib.Data.Nat.Digits.Lemmas
import Mathlib.Data.List.TakeWhile

/-!
# Dates and times as text (C174): printing, `lis_chaine`, the constructors from a string

Text is a list of characters. `none` is an exception, or undefined behaviour (an uninitialised variable is read, an integer conversion out of range).
-/

namespace Verif.Temps

/-! ## Model -/

/-- Character of a decimal digit (the formatting library), core/src/temps.cc:565-590. -/
def car (d : ℕ) : Char := Char.ofNat (48 + d)

/-- Decimal writing of a natural number, core/src/temps.cc:565-590. -/
def chiffres (n : ℕ) : List Char := if n = 0 then ['0'] else (Nat.digits 10 n).reverse.map car

/-- The format `{:0>wd}`: right-aligned in `w` characters, completed with `0`, core/src/temps.cc:565, 573, 586-590. -/
def champ (w : ℕ) (n : ℤ) : List Char :=
  let t := (if n < 0 then ['-'] else []) ++ chiffres n.natAbs;
  List.replicate (w - t.length) '0' ++ t

/-- Printing of a date, core/src/temps.cc:563-567. -/
def afficheCal (c : Cal) : List Char := champ 4 c.annee ++ '-' :: champ 2 c.mois ++ '-' :: champ 2 c.jour

/-- Printing of a time, core/src/temps.cc:570-575. -/
def afficheHeure (h : Heure) : List Char :=
  champ 2 h.heure ++ ':' :: champ 2 h.minutes ++ ':' :: champ 2 h.secondes ++ ',' :: champ 3 h.ms ++ ':' :: champ 3 h.us

/-- `Durée::heures(1)`, core/src/temps.cc:137-140. -/
def uneHeure : ℤ := tronque (rnd64 (1 * (TICS_HEURE : ℚ)))

/-- `decomposition_locale`: one hour is added, whatever the time zone, core/src/temps.cc:463-496. -/
def decompositionLocale (t : ℤ) : Option (Cal × Heure) := decomposition (t + uneHeure)

/-- Printing of an instant; `utc` is the global `mode_utc` (false at start), core/src/temps.cc:561, 577-597. -/
def afficheDate (utc : Bool) (t : ℤ) : Option (List Char) :=
  (if utc then decomposition t else decompositionLocale t).map fun d : Cal × Heure =>
    champ 4 d.1.annee ++ '-' :: (champ 2 d.1.mois ++ '-' :: (champ 2 d.1.jour ++ ' ' :: (champ 2 d.2.heure ++ ':' :: (champ 2 d.2.minutes ++ ':' :: (champ 2 d.2.secondes ++
      ':' :: (champ 3 d.2.ms ++ (if utc then " (UTC)".toList else " (local hour)".toList)))))))

/-- `isspace`, used by `stoi` and `sscanf`, core/src/temps.cc:418, 248-250. -/
def espace (c : Char) : Bool := c.toNat = 32 || (9 ≤ c.toNat && c.toNat ≤ 13)

/-- A decimal digit, core/src/temps.cc:418, 248-250. -/
def chiffre (c : Char) : Bool := 48 ≤ c.toNat && c.toNat ≤ 57

/-- Value of a sequence of digits, core/src/temps.cc:418, 248-250. -/
def valeurChiffres (l : List Char) : ℕ := l.foldl (fun a c => 10 * a + (c.toNat - 48)) 0

/-- The beginning of a text read as a decimal integer (`stoi`, `%d`): spaces, sign, digits; value and remaining text. Without a digit: exception of `stoi`, or variable left uninitialised by `sscanf`;
out of the range of `int`: exception of `stoi`, undefined with `sscanf`. core/src/temps.cc:248-250, 270-272, 418. -/
def entierLu (s : List Char) : Option (ℤ × List Char) :=
  let s1 := s.dropWhile espace;
  let neg := s1.head? = some '-';
  let s2 := if s1.head? = some '-' ∨ s1.head? = some '+' then s1.tail else s1;
  let v : ℤ := if neg then -(valeurChiffres (s2.takeWhile chiffre) : ℤ) else valeurChiffres (s2.takeWhile chiffre);
  if s2.takeWhile chiffre = [] then none else if -2 ^ 31 ≤ v ∧ v < 2 ^ 31 then some (v, s2.dropWhile chiffre) else none

/-- A literal character in the format of `sscanf`, core/src/temps.cc:418. -/
def litteral (c : Char) (s : List Char) : Option (List Char) := if s.head? = some c then some s.tail else none

/-- `DateHeure::lis_chaine`: the number of conversions made by `sscanf` is not looked at, a missing field leaves a variable uninitialised; nothing checks that the date is valid.
core/src/temps.cc:415-420. -/
def lisChaine (s : List Char) : Option ℤ :=
  (entierLu s).bind fun y : ℤ × List Char => (litteral '-' y.2).bind fun s : List Char =>
  (entierLu s).bind fun M : ℤ × List Char => (litteral '-' M.2).bind fun s : List Char =>
  (entierLu s).bind fun d : ℤ × List Char =>
  (entierLu (d.2.dropWhile espace)).bind fun h : ℤ × List Char => (litteral ':' h.2).bind fun s : List Char =>
  (entierLu s).bind fun m : ℤ × List Char => (litteral ':' m.2).bind fun s : List Char =>
  (entierLu s).map fun sec : ℤ × List Char => dateHeure ⟨y.1, M.1, d.1⟩ ⟨h.1, m.1, sec.1, 0, 0⟩

/-- `split`, for a delimiter of one character: the loop stops when the delimiter is not found, or is the last character; empty pieces are dropped. core/src/temps.cc:213-229. -/
def split (d : Char) (s : List Char) : List (List Char) :=
  let tok := s.takeWhile (· ≠ d);
  let rest := s.dropWhile (· ≠ d);
  (if tok = [] then [] else [tok]) ++ (if h : rest.tail = [] then [] else
    have : rest.tail.length < s.length := by
      have h1 : rest.length ≤ s.length := (List.dropWhile_sublist _).length_le
      have h2 : rest ≠ [] := by intro e; exact h (by rw [e]; rfl)
      have h3 := List.length_pos_of_ne_nil h2
      rw [List.length_tail]; omega
    split d rest.tail)
termination_by s.length
decreasing_by assumption

/-- `Calendrier(string)`: day, month, year; what follows the digits of a piece is ignored (`stoi`). core/src/temps.cc:238-255. -/
def calDeTexte (s : List Char) : Option Cal :=
  match split '/' s with
  | [a, b, c] => (entierLu a).bind fun j : ℤ × List Char => (entierLu b).bind fun m : ℤ × List Char => (entierLu c).bind fun y : ℤ × List Char =>
      if (⟨y.1, m.1, j.1⟩ : Cal).estValide then some ⟨y.1, m.1, j.1⟩ else none
  | _ => none

/-- `HeureComposite(string)`, core/src/temps.cc:267-281. -/
def heureDeTexte (s : List Char) : Option Heure :=
  match split ':' s with
  | [a, b, c] => (entierLu a).bind fun h : ℤ × List Char => (entierLu b).bind fun m : ℤ × List Char => (entierLu c).bind fun x : ℤ × List Char =>
      if (⟨h.1, m.1, x.1, 0, 0⟩ : Heure).estValide then some ⟨h.1, m.1, x.1, 0, 0⟩ else none
  | _ => none

/-! ## Specification -/

/-- `l` is a decimal writing of `n`, with as many leading zeros as one wants. -/
def EcritureDe (n : ℕ) (l : List Char) : Prop := ∃ k, l = List.replicate k '0' ++ chiffres n

/-! ## Proofs -/

theorem car_chiffre (d : ℕ) (h : d < 10) : chiffre (car d) = true ∧ (car d).toNat - 48 = d := by
  interval_cases d <;> decide

theorem chiffres_tous (n : ℕ) : chiffres n ≠ [] ∧ ∀ c ∈ chiffres n, chiffre c = true := by
  unfold chiffres
  split
  · exact ⟨by simp, by simp [chiffre]⟩
  · rename_i h
    refine ⟨by simp [Nat.digits_ne_nil_iff_ne_zero.2 h], ?_⟩
    intro c hc
    simp only [List.mem_map, List.mem_reverse] at hc
    obtain ⟨d, hd, rfl⟩ := hc
    exact (car_chiffre d (Nat.digits_lt_base (by norm_num) hd)).1

theorem valeur_append (a b : List Char) : ∀ v : ℕ, (a ++ b).foldl (fun a c => 10 * a + (c.toNat - 48)) v = b.foldl (fun a c => 10 * a + (c.toNat - 48)) (a.foldl (fun a c => 10 * a + (c.toNat - 48)) v) := by
  intro v; rw [List.foldl_append]

theorem valeur_chiffres (n : ℕ) : valeurChiffres (chiffres n) = n := by
  unfold chiffres
  split
  · rename_i h; rw [h]; rfl
  · rw [valeurChiffres, List.foldl_map]
    rw [List.foldl_reverse]
    have : ∀ l : List ℕ, (∀ d ∈ l, d < 10) → l.foldr (fun x y => 10 * y + ((car x).toNat - 48)) 0 = Nat.ofDigits 10 l := by
      intro l
      induction l with
      | nil => intro _; rfl
      | cons a l ih =>
        intro h
        rw [List.foldr_cons, ih (fun d hd => h d (List.mem_cons_of_mem _ hd)), (car_chiffre a (h a List.mem_cons_self)).2, Nat.ofDigits_cons, add_comm]
    rw [this _ (fun d hd => Nat.digits_lt_base (by norm_num) hd), Nat.ofDigits_digits]

theorem ecriture_proprietes (n : ℕ) (l : List Char) (h : EcritureDe n l) : l ≠ [] ∧ (∀ c ∈ l, chiffre c = true) ∧ valeurChiffres l = n := by
  obtain ⟨k, rfl⟩ := h
  obtain ⟨h1, h2⟩ := chiffres_tous n
  refine ⟨by simp [h1], ?_, ?_⟩
  · intro c hc
    rcases List.mem_append.1 hc with hc | hc
    · rw [List.eq_of_mem_replicate hc]; decide
    · exact h2 c hc
  · rw [valeurChiffres, valeur_append]
    have : (List.replicate k '0').foldl (fun a c => 10 * a + (c.toNat - 48)) 0 = 0 := by
      induction k with
      | zero => rfl
      | succ k ih => rw [List.replicate_succ, List.foldl_cons]; exact ih
    rw [this]
    exact valeur_chiffres n

theorem champ_ecriture (w : ℕ) (n : ℤ) (h : 0 ≤ n) : EcritureDe n.toNat (champ w n) := by
  refine ⟨w - (chiffres n.natAbs).length, ?_⟩
  have e : n.natAbs = n.toNat := by omega
  simp [champ, show ¬ n < 0 by omega, e]

theorem chiffre_pas_espace (c : Char) (h : chiffre c = true) : espace c = false ∧ c ≠ '-' ∧ c ≠ '+' ∧ c ≠ '/' ∧ c ≠ ':' := by
  simp only [chiffre, Bool.and_eq_true, decide_eq_true_eq] at h
  refine ⟨?_, ?_, ?_, ?_, ?_⟩
  · have h1 : c.toNat ≠ 32 := by omega
    have h2 : ¬ c.toNat ≤ 13 := by omega
    simp [espace, h1, h2]
  all_goals
    rintro rfl
    revert h
    decide

/-- Reading a decimal writing. -/
theorem entierLu_ecriture (n : ℕ) (hn : n < 2 ^ 31) (l : List Char) (h : EcritureDe n l) (r : List Char) (hr : ∀ c, r.head? = some c → chiffre c = false) :
    entierLu (l ++ r) = some ((n : ℤ), r) := by
  obtain ⟨h0, h1, h2⟩ := ecriture_proprietes n l h
  obtain ⟨a, m, rfl⟩ := List.exists_cons_of_ne_nil h0
  obtain ⟨p1, p2, p3, -⟩ := chiffre_pas_espace a (h1 a List.mem_cons_self)
  have e1 : (a :: m ++ r).dropWhile espace = a :: m ++ r := by simp [p1]
  have et : (a :: m ++ r).takeWhile chiffre = a :: m := by
    rw [List.takeWhile_append_of_pos h1]
    cases r with
    | nil => simp
    | cons c r => simp [hr c rfl]
  have ed : (a :: m ++ r).dropWhile chiffre = r := by
    rw [List.dropWhile_append_of_pos h1]
    cases r with
    | nil => simp
    | cons c r => simp [hr c rfl]
  have hs : ¬ ((a :: m ++ r).head? = some '-' ∨ (a :: m ++ r).head? = some '+') := by simp [p2, p3]
  have hs' : ¬ ((a :: m ++ r).head? = some '-') := by simp [p2]
  unfold entierLu
  simp only [e1]
  rw [if_neg hs, et, ed, if_neg (by simp)]
  simp only [hs', if_false, h2]
  rw [if_pos (by constructor <;> omega)]

theorem litteral_ok (c : Char) (s : List Char) : litteral c (c :: s) = some s := by simp [litteral]

theorem entierLu_champ (w : ℕ) (n : ℤ) (h0 : 0 ≤ n) (h1 : n < 2 ^ 31) (c : Char) (r : List Char) (hc : chiffre c = false) : entierLu (champ w n ++ c :: r) = some (n, c :: r) := by
  have := entierLu_ecriture n.toNat (by omega) _ (champ_ecriture w n h0) (c :: r) (by simp [hc])
  rw [this, Int.toNat_of_nonneg h0]

/-- Reading back the text of a valid date and time, whatever follows the seconds. -/
theorem lis_texte (c : Cal) (h : Heure) (hc : DateValide c) (hh : HeureValide h) (q : Char) (r : List Char) (hq : chiffre q = false) :
    lisChaine (champ 4 c.annee ++ '-' :: (champ 2 c.mois ++ '-' :: (champ 2 c.jour ++ ' ' :: (champ 2 h.heure ++ ':' :: (champ 2 h.minutes ++ ':' :: (champ 2 h.secondes ++ q :: r)))))) =
      some (dateHeure c ⟨h.heure, h.minutes, h.secondes, 0, 0⟩) := by
  obtain ⟨a1, a2, a3, a4, a5, a6⟩ := hc
  obtain ⟨b1, b2, b3, b4, b5, b6, -⟩ := hh
  have hj : c.jour ≤ 31 := by
    refine le_trans a6 ?_
    unfold longueurMois; split <;> [split; split] <;> omega
  have hsp : ∀ s : List Char, (' ' :: (champ 2 h.heure ++ s)).dropWhile espace = champ 2 h.heure ++ s := by
    intro s
    obtain ⟨h0, hd, -⟩ := ecriture_proprietes _ _ (champ_ecriture 2 h.heure b1)
    obtain ⟨a, m, e⟩ := List.exists_cons_of_ne_nil h0
    rw [e]
    have ha := (chiffre_pas_espace a (hd a (by rw [e]; exact List.mem_cons_self))).1
    have hb : espace ' ' = true := by decide
    simp [List.dropWhile_cons, ha, hb]
  unfold lisChaine
  rw [entierLu_champ _ _ (by omega) (by omega) _ _ (by decide), Option.bind_some]
  dsimp only
  rw [litteral_ok, Option.bind_some, entierLu_champ _ _ (by omega) (by omega) _ _ (by decide), Option.bind_some]
  dsimp only
  rw [litteral_ok, Option.bind_some, entierLu_champ _ _ (by omega) (by omega) _ _ (by decide), Option.bind_some]
  dsimp only
  rw [hsp, entierLu_champ _ _ (by omega) (by omega) _ _ (by decide), Option.bind_some]
  dsimp only
  rw [litteral_ok, Option.bind_some, entierLu_champ _ _ (by omega) (by omega) _ _ (by decide), Option.bind_some]
  dsimp only
  rw [litteral_ok, Option.bind_some, entierLu_champ _ _ (by omega) (by omega) _ _ hq]
  rfl

theorem seconde_pleine (c : Cal) (h : Heure) (hc : DateValide c) (hh : HeureValide h) : dateHeure c ⟨h.heure, h.minutes, h.secondes, 0, 0⟩ = dateHeure c h - dateHeure c h % 1000000 := by
  have r := nbJours_range c hc
  unfold joursEre at r
  obtain ⟨-, -, -, -, -, -, b7, b8, b9, b10⟩ := hh
  simp only [dateHeure, dureeHeure]
  rw [dureeJours_exact _ (by rw [abs_le]; omega)]
  simp only [TICS_SECONDE, TICS_MS, usParJour]
  omega

/-- **C174 (print, then read, UTC).** In UTC mode, the text of any instant of the era is read back as this instant, rounded down to the second. -/
theorem C174_affiche_lis (t : ℤ) (h0 : 0 ≤ t) (h1 : t < joursEre * usParJour) :
    ∃ s, afficheDate true t = some s ∧ lisChaine s = some (t - t % 1000000) := by
  obtain ⟨c, h, e, hc, hh, ht, -⟩ := C15_retour_aller t h0 h1
  refine ⟨_, by simp only [afficheDate, if_true, e, Option.map_some]; rfl, ?_⟩
  rw [lis_texte c h hc hh ':' _ (by decide), seconde_pleine c h hc hh, ht]

theorem uneHeure_eq : uneHeure = 3600000000 := by decide +kernel

/-- **C174 (print, then read, default mode, refuted).** In the default mode, the text of an instant is read back one hour later: never the same instant, for any instant of the era. -/
theorem C174_locale_refute (t : ℤ) (h0 : 0 ≤ t) (h1 : t + 3600000000 < joursEre * usParJour) :
    ∃ s, afficheDate false t = some s ∧ lisChaine s = some (t + 3600000000 - t % 1000000) ∧ t + 3600000000 - t % 1000000 ≠ t - t % 1000000 := by
  obtain ⟨c, h, e, hc, hh, ht, -⟩ := C15_retour_aller (t + 3600000000) (by omega) h1
  refine ⟨_, by simp only [afficheDate, decompositionLocale, uneHeure_eq, Bool.false_eq_true, if_false, e, Option.map_some]; rfl, ?_, by omega⟩
  rw [lis_texte c h hc hh ':' _ (by decide), seconde_pleine c h hc hh, ht]
  congr 1
  omega

/-- **C174 (`lis_chaine` checks nothing, refuted).** The 31st of February 2021 at 25h61'61 is read without an error, as 2 February 2021, 2h02'01: the number of days of an invalid date is counted from the day alone.
An incomplete text reads uninitialised variables. -/
theorem C174_lis_invalide_refute : lisChaine "2021-02-31 25:61:61".toList = some (dateHeure ⟨2021, 2, 2⟩ ⟨2, 2, 1, 0, 0⟩) ∧ ¬ DateValide ⟨2021, 2, 31⟩ ∧ lisChaine "2021-02-01".toList = none := by
  refine ⟨by decide +kernel, by decide, by decide +kernel⟩

theorem split_un (d : Char) (s : List Char) (h : ∀ c ∈ s, c ≠ d) (h0 : s ≠ []) : split d s = [s] := by
  have ht : s.takeWhile (· ≠ d) = s := List.takeWhile_eq_self_iff.2 (fun c hc => by simpa using h c hc)
  have hd : s.dropWhile (· ≠ d) = [] := List.dropWhile_eq_nil_iff.2 (fun c hc => by simpa using h c hc)
  rw [split]
  simp only [ht, hd, List.tail_nil, if_neg h0, dite_true, List.append_nil]

theorem split_deux (d : Char) (a b : List Char) (h : ∀ c ∈ a, c ≠ d) (h0 : a ≠ []) (h1 : b ≠ []) : split d (a ++ d :: b) = a :: split d b := by
  have ht : (a ++ d :: b).takeWhile (· ≠ d) = a := by
    rw [List.takeWhile_append_of_pos (fun c hc => by simpa using h c hc)]; simp
  have hd : (a ++ d :: b).dropWhile (· ≠ d) = d :: b := by
    rw [List.dropWhile_append_of_pos (fun c hc => by simpa using h c hc)]; simp
  rw [split]
  simp only [ht, hd, List.tail_cons, if_neg h0, dif_neg h1, List.singleton_append]

theorem ecriture_sans (n : ℕ) (l : List Char) (h : EcritureDe n l) (d : Char) (hd : d = '/' ∨ d = ':') : ∀ c ∈ l, c ≠ d := by
  intro c hc
  have := (chiffre_pas_espace c ((ecriture_proprietes n l h).2.1 c hc)).2.2.2
  rcases hd with rfl | rfl
  · exact this.1
  · exact this.2

theorem split_trois (d : Char) (hd : d = '/' ∨ d = ':') (a b c : List Char) (p q r : ℕ) (ha : EcritureDe p a) (hb : EcritureDe q b) (hc : EcritureDe r c) :
    split d (a ++ d :: (b ++ d :: c)) = [a, b, c] := by
  have h1 := (ecriture_proprietes _ _ ha).1
  have h2 := (ecriture_proprietes _ _ hb).1
  have h3 := (ecriture_proprietes _ _ hc).1
  rw [split_deux d a _ (ecriture_sans _ _ ha d hd) h1 (by simp), split_deux d b _ (ecriture_sans _ _ hb d hd) h2 h3, split_un d c (ecriture_sans _ _ hc d hd) h3]

theorem entierLu_seul (n : ℕ) (hn : n < 2 ^ 31) (l : List Char) (h : EcritureDe n l) : entierLu l = some ((n : ℤ), []) := by
  have := entierLu_ecriture n hn l h [] (by simp)
  simpa using this

/-- **C174 (date from a text).** `Calendrier("JJ/MM/AAAA")` gives the date, for every valid date and every decimal writing (with or without leading zeros) of its fields. -/
theorem C174_calendrier (c : Cal) (hc : DateValide c) (a b d : List Char) (ha : EcritureDe c.jour.toNat a) (hb : EcritureDe c.mois.toNat b) (hd : EcritureDe c.annee.toNat d) :
    calDeTexte (a ++ '/' :: (b ++ '/' :: d)) = some c := by
  have hv := (estValide_iff c).2 hc
  obtain ⟨a1, a2, a3, a4, a5, a6⟩ := hc
  have hj : c.jour ≤ 31 := by
    refine le_trans a6 ?_
    unfold longueurMois; split <;> [split; split] <;> omega
  unfold calDeTexte
  rw [split_trois '/' (Or.inl rfl) a b d _ _ _ ha hb hd]
  simp only [entierLu_seul _ (show c.jour.toNat < 2 ^ 31 by omega) a ha, entierLu_seul _ (show c.mois.toNat < 2 ^ 31 by omega) b hb, entierLu_seul _ (show c.annee.toNat < 2 ^ 31 by omega) d hd,
    Option.bind_some, Int.toNat_of_nonneg (show 0 ≤ c.jour by omega), Int.toNat_of_nonneg (show 0 ≤ c.mois by omega), Int.toNat_of_nonneg (show 0 ≤ c.annee by omega)]
  rw [if_pos hv]

/-- **C174 (time from a text).** `HeureComposite("HH:MM:SS")` gives the time, for every valid time without fraction of a second and every decimal writing of its fields. -/
theorem C174_heure (h : Heure) (hh : HeureValide h) (h1 : h.ms = 0) (h2 : h.us = 0) (a b d : List Char) (ha : EcritureDe h.heure.toNat a) (hb : EcritureDe h.minutes.toNat b) (hd : EcritureDe h.secondes.toNat d) :
    heureDeTexte (a ++ ':' :: (b ++ ':' :: d)) = some h := by
  have hv := (C15_validite_heure h).2 hh
  obtain ⟨b1, b2, b3, b4, b5, b6, -⟩ := hh
  have e : (⟨h.heure, h.minutes, h.secondes, 0, 0⟩ : Heure) = h := by cases h; simp_all
  unfold heureDeTexte
  rw [split_trois ':' (Or.inr rfl) a b d _ _ _ ha hb hd]
  simp only [entierLu_seul _ (show h.heure.toNat < 2 ^ 31 by omega) a ha, entierLu_seul _ (show h.minutes.toNat < 2 ^ 31 by omega) b hb, entierLu_seul _ (show h.secondes.toNat < 2 ^ 31 by omega) d hd,
    Option.bind_some, Int.toNat_of_nonneg b1, Int.toNat_of_nonneg b3, Int.toNat_of_nonneg b5, e]
  rw [if_pos hv]

/-- **C174 (what is accepted).** Whatever the text, if the constructors do not throw, the date and the time are valid. -/
theorem C174_accepte (s : List Char) : (∀ c, calDeTexte s = some c → DateValide c) ∧ ∀ h, heureDeTexte s = some h → HeureValide h ∧ h.ms = 0 ∧ h.us = 0 := by
  constructor
  · intro c hc
    unfold calDeTexte at hc
    split at hc
    · obtain ⟨j, -, hc⟩ := Option.bind_eq_some_iff.1 hc
      obtain ⟨m, -, hc⟩ := Option.bind_eq_some_iff.1 hc
      obtain ⟨y, -, hc⟩ := Option.bind_eq_some_iff.1 hc
      split at hc
      · rename_i hv
        rw [← Option.some.inj hc]
        exact (estValide_iff _).1 hv
      · cases hc
    · cases hc
  · intro h hc
    unfold heureDeTexte at hc
    split at hc
    · obtain ⟨j, -, hc⟩ := Option.bind_eq_some_iff.1 hc
      obtain ⟨m, -, hc⟩ := Option.bind_eq_some_iff.1 hc
      obtain ⟨y, -, hc⟩ := Option.bind_eq_some_iff.1 hc
      split at hc
      · rename_i hv
        rw [← Option.some.inj hc]
        exact ⟨(C15_validite_heure _).1 hv, rfl, rfl⟩
      · cases hc
    · cases hc

/-- **C174 (badly formatted texts, refuted).** The documentation promises an exception when the text is badly formatted; these texts are accepted. -/
theorem C174_mal_forme_refute : calDeTexte "//8th/ +2/2021AD/".toList = some ⟨2021, 2, 8⟩ ∧ heureDeTexte ":23h:10,5:02.9:".toList = some ⟨23, 10, 2, 0, 0⟩ := by
  constructor
  · have e : split '/' "//8th/ +2/2021AD/".toList = ["8th".toList, " +2".toList, "2021AD".toList] := by
      simp [split]
    unfold calDeTexte
    rw [e]
    decide +kernel
  · have e : split ':' ":23h:10,5:02.9:".toList = ["23h".toList, "10,5".toList, "02.9".toList] := by
      simp [split]
    unfold heureDeTexte
    rw [e]
    decide +kernel

/-- **C174 (printed dates and times are not read, refuted).** The constructors from a text reject the printed form of every valid date and of every valid time. -/
theorem C174_formes_refute (c : Cal) (h : Heure) (hc : DateValide c) (hh : HeureValide h) : calDeTexte (afficheCal c) = none ∧ heureDeTexte (afficheHeure h) = none := by
  obtain ⟨a1, a2, a3, a4, a5, a6⟩ := hc
  obtain ⟨b1, b2, b3, b4, b5, b6, b7, b8, b9, b10⟩ := hh
  have E := fun (w : ℕ) (n : ℤ) (hn : 0 ≤ n) => champ_ecriture w n hn
  constructor
  · have hno : ∀ x ∈ afficheCal c, x ≠ '/' := by
      intro x hx
      simp only [afficheCal, List.cons_append, List.append_assoc, List.mem_append, List.mem_cons] at hx
      rcases hx with hx | rfl | hx | rfl | hx
      · exact ecriture_sans _ _ (E 4 c.annee (by omega)) '/' (Or.inl rfl) x hx
      · decide
      · exact ecriture_sans _ _ (E 2 c.mois (by omega)) '/' (Or.inl rfl) x hx
      · decide
      · exact ecriture_sans _ _ (E 2 c.jour (by omega)) '/' (Or.inl rfl) x hx
    unfold calDeTexte
    rw [split_un '/' _ hno (by simp [afficheCal])]
  · have g : afficheHeure h = champ 2 h.heure ++ ':' :: (champ 2 h.minutes ++ ':' :: ((champ 2 h.secondes ++ ',' :: champ 3 h.ms) ++ ':' :: champ 3 h.us)) := by simp [afficheHeure]
    have hno : ∀ x ∈ champ 2 h.secondes ++ ',' :: champ 3 h.ms, x ≠ ':' := by
      intro x hx
      simp only [List.mem_append, List.mem_cons] at hx
      rcases hx with hx | rfl | hx
      · exact ecriture_sans _ _ (E 2 h.secondes (by omega)) ':' (Or.inr rfl) x hx
      · decide
      · exact ecriture_sans _ _ (E 3 h.ms (by omega)) ':' (Or.inr rfl) x hx
    have n1 := (ecriture_proprietes _ _ (E 2 h.heure b1)).1
    have n2 := (ecriture_proprietes _ _ (E 2 h.minutes b3)).1
    have n4 := (ecriture_proprietes _ _ (E 3 h.us b9)).1
    unfold heureDeTexte
    rw [g, split_deux ':' _ _ (ecriture_sans _ _ (E 2 h.heure b1) ':' (Or.inr rfl)) n1 (by simp), split_deux ':' _ _ (ecriture_sans _ _ (E 2 h.minutes b3) ':' (Or.inr rfl)) n2 (by simp),
      split_deux ':' _ _ hno (by simp) n4, split_un ':' _ (ecriture_sans _ _ (E 3 h.us b9) ':' (Or.inr rfl)) n4]

/-- Concrete texts. -/
example : afficheDate true (dateHeure ⟨2021, 2, 8⟩ ⟨12, 5, 9, 7, 30⟩) = some "2021-02-08 12:05:09:007 (UTC)".toList ∧ afficheDate false (dateHeure ⟨2021, 2, 8⟩ ⟨12, 5, 9, 7, 30⟩) = some "2021-02-08 13:05:09:007 (local hour)".toList := by
  constructor <;> decide +kernel

/-- The hypotheses of `C174_calendrier` on the text `08/2/2021`. -/
example : calDeTexte "08/2/2021".toList = some ⟨2021, 2, 8⟩ :=
  C174_calendrier ⟨2021, 2, 8⟩ (by decide) "08".toList "2".toList "2021".toList ⟨1, by decide +kernel⟩ ⟨0, by decide +kernel⟩ ⟨0, by decide +kernel⟩

end Verif.Temps
