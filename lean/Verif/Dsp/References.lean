import Mathlib.Tactic

/-!
# C203: a setting made in a configuration structure of the English API is the one used by the function that receives it

These structures (`FFTFilterConfig`, `DetectorConfig`, `DispersiveChannelConfig`, `FHSSConfig`, `DSSSConfig`, `TranspoBBConfig`, `ClockRecConfig`) derive from the French structure, and
name its fields again by members that are references.
-/

namespace Verif.Dsp

/-! ## Model: objects in memory -/

/-- One configuration object: the fields of the French base structure (indexed by ℕ), and the object whose fields the English reference members designate.
core/include/dsp/fourier.hpp:252-268, 545-567; core/include/dsp/telecom.hpp:681-695, 724-741, 754-760, 774-782, 832-853. -/
structure ObjetConfig (V : Type) where
  champs : ℕ → V
  cible : ℕ

/-- The memory: the live objects. A destroyed object is `none`. -/
abbrev MemConfig (V : Type) := ℕ → Option (ObjetConfig V)

variable {V : Type}

/-- Construction with the default values `defaut`: `int &time_blocks_length = dim_blocs_temporel` (the default member initialisers bind the references to the fields of the object itself).
core/include/dsp/fourier.hpp:255, core/include/dsp/telecom.hpp:684. -/
def construit (defaut : ℕ → V) (o : ℕ) (m : MemConfig V) : MemConfig V := fun i => if i = o then some ⟨defaut, o⟩ else m i

/-- The implicit copy constructor: member by member, a reference is bound to what the reference of the source designates. core/include/dsp/telecom.hpp:724-741 (no constructor is declared). -/
def copie (o s : ℕ) (m : MemConfig V) : Option (MemConfig V) := (m s).map fun x : ObjetConfig V => fun i => if i = o then some x else m i

/-- End of life of an object. -/
def detruit (o : ℕ) (m : MemConfig V) : MemConfig V := fun i => if i = o then none else m i

/-- `c.english_name = v` for field `f` of object `o`: writes through the reference; a destroyed target is undefined behaviour. core/include/dsp/telecom.hpp:774-782. -/
def regle (o f : ℕ) (v : V) (m : MemConfig V) : Option (MemConfig V) :=
  (m o).bind fun x : ObjetConfig V => (m x.cible).map fun y : ObjetConfig V => fun i => if i = x.cible then some ⟨Function.update y.champs f v, y.cible⟩ else m i

/-- Reading `c.english_name`. -/
def litEn (o f : ℕ) (m : MemConfig V) : Option V := (m o).bind fun x : ObjetConfig V => (m x.cible).map fun y : ObjetConfig V => y.champs f

/-- What the function called with `o` receives: the fields of the French base (`nfr::fhss_modulation(config)` slices the object). core/include/dsp/telecom.hpp:748-751. -/
def recus (o : ℕ) (m : MemConfig V) : Option (ℕ → V) := (m o).map fun x : ObjetConfig V => x.champs

/-- Which reference members exist when the initialiser is `name = base` with `base` another name: it designates the base. When both names are the same (`Mode &mode = mode`, core/include/dsp/fourier.hpp:559),
the reference is initialised by itself: it designates nothing. -/
def referenceInit (nom base : String) : Option String := if nom = base then none else some base

/-- The reference members of `DetectorConfig` and their initialisers, core/include/dsp/fourier.hpp:547-566. -/
def membresDetecteur : List (String × String) :=
  [("Ns", "Ne"), ("pattern", "motif"), ("threshold", "seuil"), ("debug_active", "debug_actif"), ("mode", "mode"), ("on_detection", "gere_detection"), ("compute_correlation_signal", "calculer_signal_correlation")]

/-! ## Specification -/

/-- The setting `v` of field `f` made on `o` succeeds, and the function called with `o` then receives `v` in that field and the other fields unchanged. -/
def ReglageRecu (o f : ℕ) (v : V) (m : MemConfig V) : Prop := ∃ m' r r', regle o f v m = some m' ∧ recus o m = some r ∧ recus o m' = some r' ∧ r' f = v ∧ ∀ g, g ≠ f → r' g = r g

/-! ## Theorems -/

/-- **C203 for an object that is not a copy**: any sequence of settings is received exactly. -/
theorem C203_direct (defaut : ℕ → V) (o : ℕ) (m : MemConfig V) (l : List (ℕ × V)) :
    ∃ m', l.foldlM (fun m (p : ℕ × V) => regle o p.1 p.2 m) (construit defaut o m) = some m' ∧ recus o m' = some (l.foldl (fun d (p : ℕ × V) => Function.update d p.1 p.2) defaut) ∧
      ∀ i, i ≠ o → m' i = m i := by
  suffices H : ∀ (m0 : MemConfig V), m0 o = some ⟨defaut, o⟩ → ∃ m', l.foldlM (fun m (p : ℕ × V) => regle o p.1 p.2 m) m0 = some m' ∧
      recus o m' = some (l.foldl (fun d (p : ℕ × V) => Function.update d p.1 p.2) defaut) ∧ ∀ i, i ≠ o → m' i = m0 i by
    obtain ⟨m', e, h1, h2⟩ := H (construit defaut o m) (by simp [construit])
    exact ⟨m', e, h1, fun i hi => by rw [h2 i hi]; simp [construit, hi]⟩
  induction l generalizing defaut with
  | nil => exact fun m0 h => ⟨m0, rfl, by simp [recus, h], fun _ _ => rfl⟩
  | cons p l ih =>
    intro m0 h
    obtain ⟨m', e, h1, h2⟩ := ih (Function.update defaut p.1 p.2) (fun i => if i = o then some ⟨Function.update defaut p.1 p.2, o⟩ else m0 i) (by simp)
    refine ⟨m', ?_, h1, fun i hi => by rw [h2 i hi]; simp [hi]⟩
    rw [List.foldlM_cons]
    have : regle o p.1 p.2 m0 = some fun i => if i = o then some ⟨Function.update defaut p.1 p.2, o⟩ else m0 i := by simp [regle, h]
    rw [this]
    exact e

/-- **C203 for an object that is not a copy**, in terms of the specification. -/
theorem C203_direct_recu (defaut : ℕ → V) (o f : ℕ) (v : V) (m : MemConfig V) : ReglageRecu o f v (construit defaut o m) := by
  refine ⟨fun i => if i = o then some ⟨Function.update defaut f v, o⟩ else construit defaut o m i, defaut, Function.update defaut f v, by simp [regle, construit], by simp [recus, construit], by simp [recus], by simp, fun g hg => by simp [hg]⟩

/-- **C203, violated by a copy**: a setting made on the copy `c` of `o` is not received by the function called with `c` — it receives the values of `o` at the time of the copy —, and it modifies `o`. -/
theorem C203_copie_refute (defaut : ℕ → V) (o c f : ℕ) (v : V) (m : MemConfig V) (hc : c ≠ o) (hv : v ≠ defaut f) :
    ∃ m1 m2, copie c o (construit defaut o m) = some m1 ∧ regle c f v m1 = some m2 ∧ recus c m2 = some defaut ∧ recus o m2 = some (Function.update defaut f v) ∧ litEn c f m2 = some v ∧ ¬ ReglageRecu c f v m1 := by
  have h1 : copie c o (construit defaut o m) = some fun i => if i = c then some ⟨defaut, o⟩ else construit defaut o m i := by simp [copie, construit]
  have h2 : regle c f v (fun i => if i = c then some ⟨defaut, o⟩ else construit defaut o m i) =
      some fun i => if i = o then some ⟨Function.update defaut f v, o⟩ else if i = c then some ⟨defaut, o⟩ else construit defaut o m i := by
    simp [regle, construit, Ne.symm hc]
  refine ⟨_, _, h1, h2, by simp [recus, hc], by simp [recus], by simp [litEn, hc], ?_⟩
  rintro ⟨m', r, r', e, -, e', h, -⟩
  rw [h2] at e
  obtain rfl := Option.some.inj e
  simp [recus, hc] at e'
  rw [← e'] at h
  exact hv h.symm

/-- **C203, violated by a copy that survives the original** (a configuration returned by value through a copy, stored in a container, …): any setting, and any reading of a setting, is undefined behaviour. -/
theorem C203_survie_refute (defaut : ℕ → V) (o c f : ℕ) (v : V) (m : MemConfig V) (hc : c ≠ o) :
    ∃ m1, copie c o (construit defaut o m) = some m1 ∧ regle c f v (detruit o m1) = none ∧ litEn c f (detruit o m1) = none := by
  have h1 : copie c o (construit defaut o m) = some fun i => if i = c then some ⟨defaut, o⟩ else construit defaut o m i := by simp [copie, construit]
  exact ⟨_, h1, by simp [regle, detruit, hc], by simp [litEn, detruit, hc]⟩

/-- **C203, violated by the mode of the detector**: its name designates nothing, whereas every other name designates a field of the French structure. -/
theorem C203_mode_refute (p : String × String) (h : p ∈ membresDetecteur) : referenceInit p.1 p.2 = none ↔ p.1 = "mode" := by
  simp only [membresDetecteur, List.mem_cons, List.not_mem_nil, or_false] at h
  rcases h with rfl | rfl | rfl | rfl | rfl | rfl | rfl <;> simp [referenceInit]

example : ∃ m1 m2, copie 1 0 (construit (fun _ => (0 : ℤ)) 0 fun _ => none) = some m1 ∧ regle 1 0 256 m1 = some m2 ∧ recus 1 m2 = some (fun _ => 0) := by
  obtain ⟨m1, m2, a, b, c, -⟩ := C203_copie_refute (fun _ => (0 : ℤ)) 0 1 0 256 (fun _ => none) (by norm_num) (by norm_num)
  exact ⟨m1, m2, a, b, c⟩

end Verif.Dsp
