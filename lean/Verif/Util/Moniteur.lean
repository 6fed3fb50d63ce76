import Mathlib.Data.Rat.Defs
import Mathlib.Algebra.Order.Field.Rat
import Mathlib.Tactic.Linarith
import Mathlib.Tactic.NormNum
import Mathlib.Tactic.Positivity
import Mathlib.Tactic.Ring
import Mathlib.Data.Rat.Cast.Order

/-!
# CPU load monitors (core/src/moniteur-cpu.cc)

Times are integers (µs, `int64_t` without overflow); percentages are exact rationals instead of `float`.  The two clocks read by a call are given by the event.
-/

namespace Verif.Moniteur

/-- `MoniteurCpu::Impl::PerThread`, core/src/moniteur-cpu.cc:58-75 (`cl0` : CPU clock of the thread, `cl00` : monotonic clock; both are zero in `PerThread()`, which is value-initialised). -/
structure ParFil where
  enCours : Bool
  cl0 : ℤ
  cl00 : ℤ
  cl00Init : Bool
  totalUs : ℤ
  usEnCours : ℤ
  cnt : ℕ
  totalCnt : ℕ
  pourcent : ℚ

/-- `PerThread()`, core/src/moniteur-cpu.cc:58-75. -/
def ParFil.neuf : ParFil := ⟨false, 0, 0, false, 0, 0, 0, 0, 0⟩

/-- `map<thread::id, PerThread> pt`, core/src/moniteur-cpu.cc:77-78. -/
abbrev Table := List (ℕ × ParFil)

/-- `auto &p = pt[id]; p = f(p)`: the entry is created by the first access, core/src/moniteur-cpu.cc:82 and 97. -/
def modifie (f : ParFil → ParFil) (t : ℕ) : Table → Table
  | [] => [(t, f ParFil.neuf)]
  | (u, p) :: l => if u = t then (u, f p) :: l else (u, p) :: modifie f t l

/-- `commence_op`, core/src/moniteur-cpu.cc:79-94; `c`, `m` : values of the CPU clock of the thread and of the monotonic clock (a warning is displayed if an operation is in progress). -/
def ParFil.commence (c m : ℤ) (p : ParFil) : ParFil :=
  { p with enCours := true, cl0 := c, cl00 := if p.cl00Init then p.cl00 else m, cl00Init := true }

/-- `fin_op`, core/src/moniteur-cpu.cc:94-135. -/
def ParFil.fin (c m : ℤ) (p : ParFil) : ParFil :=
  if m - p.cl00 > 500000 then
    { p with enCours := false, totalCnt := p.totalCnt + 1, totalUs := p.totalUs + (c - p.cl0), pourcent := 100 * ((p.usEnCours + (c - p.cl0) : ℤ) : ℚ) / ((m - p.cl00 : ℤ) : ℚ), cnt := 0, usEnCours := 0, cl00 := m }
  else
    { p with enCours := false, totalCnt := p.totalCnt + 1, totalUs := p.totalUs + (c - p.cl0), cnt := p.cnt + 1, usEnCours := p.usEnCours + (c - p.cl0) }

/-- The calls: thread, CPU clock of the thread, monotonic clock. -/
inductive Appel
  | commence (t : ℕ) (c m : ℤ)
  | fin (t : ℕ) (c m : ℤ)
  | reset (m : ℤ)

/-- Instant of a call. -/
def Appel.instant : Appel → ℤ
  | .commence _ _ m => m
  | .fin _ _ m => m
  | .reset m => m

/-- One call, core/src/moniteur-cpu.cc:80-135 and 172-177 (`reset` keeps the entries and clears them). -/
def pas (l : Table) : Appel → Table
  | .commence t c m => modifie (ParFil.commence c m) t l
  | .fin t c m => modifie (ParFil.fin c m) t l
  | .reset _ => l.map fun e : ℕ × ParFil => (e.1, ParFil.neuf)

/-- State after a history (the latest call first). -/
def joue : List Appel → Table
  | [] => []
  | a :: h => pas (joue h) a

/-- `lis_stats`, core/src/moniteur-cpu.cc:135-166: CPU load and number of calls (`df > 1` second: the thread is ignored). -/
def stats (l : Table) (now : ℤ) : ℚ × ℕ :=
  ((l.map fun e : ℕ × ParFil => if now - e.2.cl00 > 1000000 then (0 : ℚ) else e.2.pourcent).sum, (l.map fun e : ℕ × ParFil => if now - e.2.cl00 > 1000000 then 0 else e.2.totalCnt).sum)

/-- `MoniteursStats::get`, core/src/moniteur-cpu.cc:222-231: the first entry with the name; default values (no name, 0, 0) otherwise. -/
def cherche (nom : String) : List (String × ℚ × ℕ) → String × ℚ × ℕ
  | [] => ("", 0, 0)
  | s :: l => if s.1 = nom then s else cherche nom l

/-! ## Specification, on the history alone (the latest call first) -/

/-- Number of operations finished since the last reset (all threads). -/
def finis : List Appel → ℕ
  | [] => 0
  | .reset _ :: _ => 0
  | .fin _ _ _ :: h => finis h + 1
  | .commence _ _ _ :: h => finis h

/-- Instant of the last end of an operation of the thread `t` since the last reset. -/
def dernierFin (t : ℕ) : List Appel → Option ℤ
  | [] => none
  | .reset _ :: _ => none
  | .fin u _ m :: h => if u = t then some m else dernierFin t h
  | .commence _ _ _ :: h => dernierFin t h

/-- The calls are in the order of the monotonic clock. -/
def Chronologique (h : List Appel) : Prop := h.Pairwise fun a b => b.instant ≤ a.instant

/-- Last call of the thread since the last reset: is it a beginning, CPU clock, monotonic clock. -/
def suivi (t : ℕ) : List Appel → Option (Bool × ℤ × ℤ)
  | [] => none
  | .reset _ :: _ => none
  | .commence u c m :: h => if u = t then some (true, c, m) else suivi t h
  | .fin u c m :: h => if u = t then some (false, c, m) else suivi t h

/-- Regular use by the thread `t`: beginnings and ends alternate, no reset during an operation, and between two calls the thread does not use more CPU time than the time which passes. -/
def Regulier (t : ℕ) : List Appel → Prop
  | [] => True
  | .reset _ :: h => Regulier t h ∧ ∀ b c m, suivi t h = some (b, c, m) → b = false
  | .commence u c m :: h => Regulier t h ∧ (u = t → ∀ b c0 m0, suivi t h = some (b, c0, m0) → b = false ∧ c0 ≤ c ∧ c - c0 ≤ m - m0)
  | .fin u c m :: h => Regulier t h ∧ (u = t → ∃ c0 m0, suivi t h = some (true, c0, m0) ∧ c0 ≤ c ∧ c - c0 ≤ m - m0)

/-- The thread `t` is always in an operation, at full load. -/
def Plein (t : ℕ) : List Appel → Prop
  | [] => True
  | .reset _ :: _ => False
  | .commence u c m :: h => Plein t h ∧ (u = t → ∀ b c0 m0, suivi t h = some (b, c0, m0) → b = false ∧ c = c0 ∧ m = m0)
  | .fin u c m :: h => Plein t h ∧ (u = t → ∃ c0 m0, suivi t h = some (true, c0, m0) ∧ m0 ≤ m ∧ c - c0 = m - m0)

/-! ## The table -/

/-- Entry of a thread. -/
def lit (t : ℕ) : Table → ParFil
  | [] => ParFil.neuf
  | (u, p) :: l => if u = t then p else lit t l

theorem lit_modifie (f : ParFil → ParFil) (t u : ℕ) (l : Table) : lit u (modifie f t l) = if u = t then f (lit t l) else lit u l := by
  induction l with
  | nil =>
    by_cases h : u = t
    · simp [modifie, lit, h]
    · simp [modifie, lit, h, Ne.symm h]
  | cons e l ih =>
    obtain ⟨v, p⟩ := e
    unfold modifie
    by_cases hv : v = t
    · subst hv
      by_cases h : u = v
      · subst h; simp [lit]
      · simp [lit, h, Ne.symm h]
    · rw [if_neg hv]
      by_cases h : v = u
      · subst h; simp [lit, hv]
      · rw [lit, if_neg h, ih]
        by_cases hu : u = t
        · rw [if_pos hu, if_pos hu, lit, if_neg hv]
        · rw [if_neg hu, if_neg hu, lit, if_neg h]

theorem lit_reset (u : ℕ) (l : Table) : lit u (l.map fun e : ℕ × ParFil => (e.1, ParFil.neuf)) = ParFil.neuf := by
  induction l with
  | nil => rfl
  | cons e l ih =>
    rw [List.map_cons, lit]
    split
    · rfl
    · exact ih

/-- Each thread has at most one entry. -/
theorem cles_modifie (f : ParFil → ParFil) (t : ℕ) (l : Table) (h : (l.map Prod.fst).Nodup) : ((modifie f t l).map Prod.fst).Nodup ∧ ∀ u ∈ (modifie f t l).map Prod.fst, u = t ∨ u ∈ l.map Prod.fst := by
  induction l with
  | nil => simp [modifie]
  | cons e l ih =>
    obtain ⟨v, p⟩ := e
    rw [List.map_cons, List.nodup_cons] at h
    obtain ⟨i1, i2⟩ := ih h.2
    unfold modifie
    by_cases hv : v = t
    · rw [if_pos hv]
      refine ⟨by rw [List.map_cons, List.nodup_cons]; exact h, fun u hu => ?_⟩
      right; exact hu
    · rw [if_neg hv]
      refine ⟨?_, fun u hu => ?_⟩
      · rw [List.map_cons, List.nodup_cons]
        refine ⟨fun hm => ?_, i1⟩
        rcases i2 _ hm with h1 | h1
        · exact hv h1
        · exact h.1 h1
      · rw [List.map_cons, List.mem_cons] at hu
        rcases hu with hu | hu
        · right; rw [hu]; simp
        · rcases i2 _ hu with h1 | h1
          · exact Or.inl h1
          · right; rw [List.map_cons]; exact List.mem_cons_of_mem _ h1

theorem cles (h : List Appel) : ((joue h).map Prod.fst).Nodup := by
  induction h with
  | nil => simp [joue]
  | cons a h ih =>
    cases a with
    | commence t c m => exact (cles_modifie _ _ _ ih).1
    | fin t c m => exact (cles_modifie _ _ _ ih).1
    | reset m =>
      rw [joue, pas, List.map_map]
      exact ih

theorem lit_mem (l : Table) (hn : (l.map Prod.fst).Nodup) (e : ℕ × ParFil) (he : e ∈ l) : e.2 = lit e.1 l := by
  induction l with
  | nil => simp at he
  | cons a l ih =>
    rw [List.map_cons, List.nodup_cons] at hn
    rw [List.mem_cons] at he
    rcases he with he | he
    · subst he; simp [lit]
    · rw [lit, if_neg]
      · exact ih hn.2 he
      · intro h
        exact hn.1 (h ▸ List.mem_map_of_mem he)

/-- Effect of a modification on a sum. -/
theorem somme_modifie (f : ParFil → ParFil) (t : ℕ) (g : ParFil → ℕ) (h0 : g ParFil.neuf = 0) (k : ℕ) (l : Table) (hf : g (f (lit t l)) = g (lit t l) + k) :
    ((modifie f t l).map fun e : ℕ × ParFil => g e.2).sum = (l.map fun e : ℕ × ParFil => g e.2).sum + k := by
  induction l with
  | nil =>
    simp only [modifie, List.map_cons, List.map_nil, List.sum_cons, List.sum_nil]
    have : g (f ParFil.neuf) = g ParFil.neuf + k := hf
    rw [this, h0]; omega
  | cons e l ih =>
    obtain ⟨v, p⟩ := e
    unfold modifie
    by_cases hv : v = t
    · rw [if_pos hv]
      simp only [List.map_cons, List.sum_cons]
      have : g (f p) = g p + k := by rw [lit, if_pos hv] at hf; exact hf
      rw [this]; omega
    · rw [if_neg hv]
      simp only [List.map_cons, List.sum_cons]
      rw [ih (by rw [lit, if_neg hv] at hf; exact hf)]
      omega

theorem fin_total (c m : ℤ) (p : ParFil) : (p.fin c m).totalCnt = p.totalCnt + 1 := by
  unfold ParFil.fin; split <;> rfl

theorem total_somme (h : List Appel) : ((joue h).map fun e : ℕ × ParFil => e.2.totalCnt).sum = finis h := by
  induction h with
  | nil => rfl
  | cons a h ih =>
    cases a with
    | commence t c m =>
      rw [joue, pas, somme_modifie _ _ (fun p => p.totalCnt) rfl 0 _ rfl, ih, finis, Nat.add_zero]
    | fin t c m =>
      rw [joue, pas, somme_modifie _ _ (fun p => p.totalCnt) rfl 1 _ (fin_total _ _ _), ih, finis]
    | reset m =>
      rw [joue, pas, List.map_map, finis]
      generalize joue h = l
      induction l with
      | nil => rfl
      | cons e l ih => simp only [List.map_cons, List.sum_cons, Function.comp_apply, ParFil.neuf, Nat.zero_add] at ih ⊢; exact ih

/-! ## Number of calls -/

/-- After an operation finished at `τ`, the reference of the window is at most half a second before. -/
theorem reference (t : ℕ) (h : List Appel) (hc : Chronologique h) : (∀ τ, dernierFin t h = some τ → τ - 500000 ≤ (lit t (joue h)).cl00) ∧ (dernierFin t h = none → (lit t (joue h)).totalCnt = 0) ∧
    (∀ τ, dernierFin t h = some τ → ∀ a ∈ h.head?, τ ≤ a.instant) := by
  induction h with
  | nil => simp [dernierFin, joue, lit, ParFil.neuf]
  | cons a h ih =>
    rw [Chronologique, List.pairwise_cons] at hc
    obtain ⟨i1, i2, i3⟩ := ih hc.2
    have hle : ∀ τ, dernierFin t h = some τ → τ ≤ a.instant := by
      intro τ hτ
      cases h with
      | nil => simp [dernierFin] at hτ
      | cons b h => exact (i3 τ hτ b rfl).trans (hc.1 b (by simp))
    cases a with
    | commence u c m =>
      simp only [dernierFin, joue, pas, lit_modifie]
      refine ⟨fun τ hτ => ?_, fun hn => ?_, fun τ hτ b hb => ?_⟩
      · split
        · rename_i hu
          subst hu
          simp only [ParFil.commence]
          split
          · exact i1 τ hτ
          · have := hle τ hτ
            simp only [Appel.instant] at this
            omega
        · exact i1 τ hτ
      · split
        · rename_i hu
          subst hu
          exact i2 hn
        · exact i2 hn
      · simp only [List.head?_cons, Option.mem_def, Option.some.injEq] at hb
        rw [← hb]; exact hle τ hτ
    | fin u c m =>
      simp only [dernierFin, joue, pas, lit_modifie]
      by_cases hu : u = t
      · subst hu
        simp only [if_true]
        refine ⟨fun τ hτ => ?_, by simp, fun τ hτ b hb => ?_⟩
        · rw [Option.some.injEq] at hτ
          subst hτ
          unfold ParFil.fin
          split
          · show m - 500000 ≤ m; omega
          · simp only; omega
        · simp only [List.head?_cons, Option.mem_def, Option.some.injEq] at hb hτ
          rw [← hb, ← hτ]; exact le_rfl
      · simp only [if_neg hu, if_neg (Ne.symm hu)]
        refine ⟨i1, i2, fun τ hτ b hb => ?_⟩
        simp only [List.head?_cons, Option.mem_def, Option.some.injEq] at hb
        rw [← hb]; exact hle τ hτ
    | reset m =>
      simp only [dernierFin, joue, pas, lit_reset]
      exact ⟨by simp, fun _ => rfl, by simp⟩

/-- **C208 (number of calls).**  Whatever the calls of any number of threads, if every thread that has finished an operation since the last reset has finished one in the last half second, the number of calls reported is
the number of operations finished since the last reset, all threads together. -/
theorem C208_appels (h : List Appel) (hc : Chronologique h) (now : ℤ) (hr : ∀ t τ, dernierFin t h = some τ → now - τ ≤ 500000) : (stats (joue h) now).2 = finis h := by
  rw [← total_somme h]
  unfold stats
  refine congrArg List.sum (List.map_congr_left fun e he => ?_)
  rw [lit_mem _ (cles h) e he]
  obtain ⟨h1, h2, -⟩ := reference e.1 h hc
  cases hd : dernierFin e.1 h with
  | none => rw [h2 hd]; simp
  | some τ =>
    have := h1 τ hd
    have := hr _ _ hd
    rw [if_neg (by omega)]

/-- Two threads, three operations. -/
example : (stats (joue [.fin 1 90 700000, .fin 2 50 650000, .commence 2 0 600000, .commence 1 40 500000, .fin 1 30 400000, .commence 1 0 300000]) 800000).2 = 3 :=
  C208_appels _ (by simp [Chronologique, Appel.instant]) _ (by
    intro t τ h
    simp only [dernierFin] at h
    split at h
    · simp only [Option.some.injEq] at h; omega
    · split at h
      · simp only [Option.some.injEq] at h; omega
      · simp at h)

/-! ## Load -/

theorem charge_inv (t : ℕ) (h : List Appel) (hr : Regulier t h) : 0 ≤ (lit t (joue h)).pourcent ∧ (lit t (joue h)).pourcent ≤ 100 ∧
    (suivi t h = none → lit t (joue h) = ParFil.neuf) ∧ ∀ b c m, suivi t h = some (b, c, m) → (lit t (joue h)).cl00Init = true ∧ 0 ≤ (lit t (joue h)).usEnCours ∧
      (lit t (joue h)).usEnCours ≤ m - (lit t (joue h)).cl00 ∧ (b = true → (lit t (joue h)).cl0 = c) := by
  induction h with
  | nil => simp [joue, lit, ParFil.neuf, suivi]
  | cons a h ih =>
    cases a with
    | commence u c m =>
      obtain ⟨h1, h2⟩ := hr
      obtain ⟨i1, i2, i3, i4⟩ := ih h1
      simp only [joue, pas, lit_modifie, suivi]
      by_cases hu : u = t
      · subst hu
        simp only [if_true, ParFil.commence]
        refine ⟨i1, i2, by simp, fun b c' m' e => ?_⟩
        simp only [Option.some.injEq, Prod.mk.injEq] at e
        obtain ⟨rfl, rfl, rfl⟩ := e
        cases hs : suivi u h with
        | none =>
          rw [i3 hs]
          simp [ParFil.neuf]
        | some r =>
          obtain ⟨b, c0, m0⟩ := r
          obtain ⟨j1, j2, j3, -⟩ := i4 b c0 m0 hs
          obtain ⟨-, k1, k2⟩ := h2 rfl b c0 m0 hs
          rw [j1]
          refine ⟨trivial, j2, ?_, fun _ => rfl⟩
          simp only [if_true]
          omega
      · simp only [if_neg hu, if_neg (Ne.symm hu)]
        exact ⟨i1, i2, i3, i4⟩
    | fin u c m =>
      obtain ⟨h1, h2⟩ := hr
      obtain ⟨i1, i2, i3, i4⟩ := ih h1
      simp only [joue, pas, lit_modifie, suivi]
      by_cases hu : u = t
      · subst hu
        obtain ⟨c0, m0, hs, k1, k2⟩ := h2 rfl
        obtain ⟨j1, j2, j3, j4⟩ := i4 _ _ _ hs
        have j4 := j4 rfl
        simp only [if_true]
        generalize lit u (joue h) = p at *
        unfold ParFil.fin
        split
        · rename_i hw
          have hp : (0 : ℚ) < ((m - p.cl00 : ℤ) : ℚ) := by exact_mod_cast (by omega : 0 < m - p.cl00)
          have hq : ((p.usEnCours + (c - p.cl0) : ℤ) : ℚ) ≤ ((m - p.cl00 : ℤ) : ℚ) := by exact_mod_cast (by omega : p.usEnCours + (c - p.cl0) ≤ m - p.cl00)
          have hz : (0 : ℚ) ≤ ((p.usEnCours + (c - p.cl0) : ℤ) : ℚ) := by exact_mod_cast (by omega : 0 ≤ p.usEnCours + (c - p.cl0))
          refine ⟨by simp only; positivity, ?_, by simp, fun b c' m' e => ?_⟩
          · simp only
            rw [div_le_iff₀ hp]
            linarith
          · simp only [Option.some.injEq, Prod.mk.injEq] at e
            obtain ⟨rfl, rfl, rfl⟩ := e
            simp [j1]
        · refine ⟨i1, i2, by simp, fun b c' m' e => ?_⟩
          simp only [Option.some.injEq, Prod.mk.injEq] at e
          obtain ⟨rfl, rfl, rfl⟩ := e
          refine ⟨j1, ?_, ?_, by simp⟩
          · simp only; omega
          · simp only; omega
      · simp only [if_neg hu, if_neg (Ne.symm hu)]
        exact ⟨i1, i2, i3, i4⟩
    | reset m =>
      simp only [joue, pas, lit_reset, suivi]
      simp [ParFil.neuf]

/-- **C208 (load).**  If the thread uses the monitor regularly (beginnings and ends alternate, the CPU clock does not go faster than time), the load recorded for it always lies between 0 and 100 %. -/
theorem C208_charge (t : ℕ) (h : List Appel) (hr : Regulier t h) (p : ParFil) (hp : (t, p) ∈ joue h) : 0 ≤ p.pourcent ∧ p.pourcent ≤ 100 := by
  have := lit_mem _ (cles h) (t, p) hp
  simp only at this
  rw [this]
  exact ⟨(charge_inv t h hr).1, (charge_inv t h hr).2.1⟩

/-- Instant of the first call of the thread. -/
def premier (t : ℕ) : List Appel → Option ℤ
  | [] => none
  | .reset _ :: h => premier t h
  | .commence u _ m :: h => match premier t h with
    | some v => some v
    | none => if u = t then some m else none
  | .fin u _ m :: h => match premier t h with
    | some v => some v
    | none => if u = t then some m else none

theorem plein_inv (t : ℕ) (h : List Appel) (hr : Plein t h) : (suivi t h = none → lit t (joue h) = ParFil.neuf ∧ premier t h = none) ∧ ∀ b c m, suivi t h = some (b, c, m) → (lit t (joue h)).cl00Init = true ∧
    (lit t (joue h)).usEnCours = m - (lit t (joue h)).cl00 ∧ (b = true → (lit t (joue h)).cl0 = c) ∧ ∃ v, premier t h = some v ∧
      (((lit t (joue h)).pourcent = 0 ∧ (lit t (joue h)).cl00 = v ∧ (lit t (joue h)).usEnCours ≤ 500000) ∨ (lit t (joue h)).pourcent = 100) := by
  induction h with
  | nil => simp [joue, lit, suivi, premier]
  | cons a h ih =>
    cases a with
    | commence u c m =>
      obtain ⟨h1, h2⟩ := hr
      obtain ⟨i3, i4⟩ := ih h1
      simp only [joue, pas, lit_modifie, suivi, premier]
      by_cases hu : u = t
      · subst hu
        simp only [if_true, ParFil.commence]
        refine ⟨by simp, fun b c' m' e => ?_⟩
        simp only [Option.some.injEq, Prod.mk.injEq] at e
        obtain ⟨rfl, rfl, rfl⟩ := e
        cases hs : suivi u h with
        | none =>
          rw [(i3 hs).1, (i3 hs).2]
          simp [ParFil.neuf]
        | some r =>
          obtain ⟨b, c0, m0⟩ := r
          obtain ⟨j1, j2, -, v, j3, j4⟩ := i4 b c0 m0 hs
          obtain ⟨-, k1, k2⟩ := h2 rfl b c0 m0 hs
          rw [j1, j3]
          subst k1 k2
          exact ⟨trivial, j2, fun _ => rfl, v, rfl, j4⟩
      · simp only [if_neg hu, if_neg (Ne.symm hu)]
        refine ⟨fun hn => ?_, fun b c' m' e => ?_⟩
        · rw [(i3 hn).2]; exact ⟨(i3 hn).1, rfl⟩
        · obtain ⟨j1, j2, j5, v, j3, j4⟩ := i4 b c' m' e
          rw [j3]
          exact ⟨j1, j2, j5, v, rfl, j4⟩
    | fin u c m =>
      obtain ⟨h1, h2⟩ := hr
      obtain ⟨i3, i4⟩ := ih h1
      simp only [joue, pas, lit_modifie, suivi, premier]
      by_cases hu : u = t
      · subst hu
        obtain ⟨c0, m0, hs, k1, k2⟩ := h2 rfl
        obtain ⟨j1, j2, j4, v, j3, j5⟩ := i4 _ _ _ hs
        have j4 := j4 rfl
        simp only [if_true]
        rw [j3]
        generalize lit u (joue h) = p at *
        refine ⟨by simp, fun b c' m' e => ?_⟩
        simp only [Option.some.injEq, Prod.mk.injEq] at e
        obtain ⟨rfl, rfl, rfl⟩ := e
        unfold ParFil.fin
        split
        · rename_i hw
          refine ⟨j1, by simp, by simp, v, rfl, Or.inr ?_⟩
          have e1 : p.usEnCours + (c - p.cl0) = m - p.cl00 := by omega
          have hp : ((m - p.cl00 : ℤ) : ℚ) ≠ 0 := by exact_mod_cast (by omega : m - p.cl00 ≠ 0)
          simp only [e1]
          rw [mul_div_assoc, div_self hp, mul_one]
        · rename_i hw
          refine ⟨j1, by simp only; omega, by simp, v, rfl, ?_⟩
          rcases j5 with ⟨q1, q2, q3⟩ | q
          · left
            exact ⟨q1, q2, by simp only; omega⟩
          · exact Or.inr q
      · simp only [if_neg hu, if_neg (Ne.symm hu)]
        refine ⟨fun hn => ?_, fun b c' m' e => ?_⟩
        · rw [(i3 hn).2]; exact ⟨(i3 hn).1, rfl⟩
        · obtain ⟨j1, j2, j5, v, j3, j4⟩ := i4 b c' m' e
          rw [j3]
          exact ⟨j1, j2, j5, v, rfl, j4⟩
    | reset m => exact absurd hr (by simp [Plein])

/-- **C208 (full load).**  The load recorded for a thread which has always been in operations at full load is 100 %, as soon as its last call is more than half a second after the first one. -/
theorem C208_plein (t : ℕ) (h : List Appel) (hr : Plein t h) (b : Bool) (c m v : ℤ) (hs : suivi t h = some (b, c, m)) (hv : premier t h = some v) (hl : 500000 < m - v) (p : ParFil) (hp : (t, p) ∈ joue h) : p.pourcent = 100 := by
  have := lit_mem _ (cles h) (t, p) hp
  simp only at this
  rw [this]
  obtain ⟨j1, j2, j5, v', j3, j4⟩ := (plein_inv t h hr).2 b c m hs
  rw [hv] at j3
  obtain rfl := Option.some.inj j3
  rcases j4 with ⟨-, q2, q3⟩ | q
  · omega
  · exact q

example : ∃ p, (1, p) ∈ joue [.fin 1 700000 700000, .commence 1 300000 300000, .fin 1 300000 300000, .commence 1 0 0] ∧ p.pourcent = 100 :=
  ⟨ParFil.fin 700000 700000 (ParFil.commence 300000 300000 (ParFil.fin 300000 300000 (ParFil.commence 0 0 ParFil.neuf))), by simp [joue, pas, modifie], C208_plein 1 [.fin 1 700000 700000, .commence 1 300000 300000, .fin 1 300000 300000, .commence 1 0 0] (by simp [Plein, suivi]) false 700000 700000 0 rfl rfl (by norm_num) _ (by simp [joue, pas, modifie])⟩

/-! ## Refutations -/

/-- **C208, refuted: the number of calls decreases and a busy thread disappears.**  A thread at full load finishes an operation (load 100 %, one call), and starts another one which lasts two seconds: before its end, without any reset,
the monitor reports no load and no call. -/
theorem C208_longue_refute : ∃ h : List Appel, Plein 1 h ∧ Chronologique h ∧ stats (joue h) 600000 = (100, 1) ∧ ∃ now, 600000 < now ∧ stats (joue h) now = (0, 0) := by
  refine ⟨[.commence 1 600000 600000, .fin 1 600000 600000, .commence 1 0 0], by simp [Plein, suivi], by simp [Chronologique, Appel.instant], ?_, 2600000, by norm_num, ?_⟩
  · norm_num [joue, pas, modifie, stats, ParFil.commence, ParFil.fin, ParFil.neuf]
  · norm_num [joue, pas, modifie, stats, ParFil.commence, ParFil.fin, ParFil.neuf]

/-! ## Search of a monitor by its name -/

/-- **C208 (search).**  `get` returns the first statistics with the name asked for, and null statistics without name if there is none. -/
theorem C208_cherche (nom : String) (l : List (String × ℚ × ℕ)) : (∃ a s b, l = a ++ s :: b ∧ s.1 = nom ∧ (∀ x ∈ a, x.1 ≠ nom) ∧ cherche nom l = s) ∨ ((∀ x ∈ l, x.1 ≠ nom) ∧ cherche nom l = ("", 0, 0)) := by
  induction l with
  | nil => right; simp [cherche]
  | cons s l ih =>
    by_cases h : s.1 = nom
    · left; exact ⟨[], s, l, rfl, h, by simp, by simp [cherche, h]⟩
    · rcases ih with ⟨a, x, b, e1, e2, e3, e4⟩ | ⟨e1, e2⟩
      · left
        refine ⟨s :: a, x, b, by rw [e1]; rfl, e2, ?_, by rw [cherche, if_neg h, e4]⟩
        intro y hy
        rw [List.mem_cons] at hy
        rcases hy with rfl | hy
        · exact h
        · exact e3 y hy
      · right
        refine ⟨?_, by rw [cherche, if_neg h, e2]⟩
        intro y hy
        rw [List.mem_cons] at hy
        rcases hy with rfl | hy
        · exact h
        · exact e1 y hy

/-! ## Threads -/

/-- Elementary actions on the shared table: `lit`/`ecrit` are unprotected accesses. -/
inductive Action
  | prend
  | rend
  | lit
  | ecrit
  deriving DecidableEq

/-- `commence_op` and `fin_op`: `pt[this_thread::get_id()]` may insert in the map, core/src/moniteur-cpu.cc:79-82 and 97 (no lock is taken). -/
def actionsOp : List Action := [.ecrit]

/-- `lis_stats`, core/src/moniteur-cpu.cc:147-162: the map is read with the lock. -/
def actionsStats : List Action := [.prend, .lit, .rend]

/-- Interleavings of two threads sharing one lock (`none`: free): the lock is taken only when free. -/
inductive Entrelace : Option ℕ → List Action → List Action → List (ℕ × Action) → Prop
  | fini (v) : Entrelace v [] [] []
  | prend0 (a b e) : Entrelace (some 0) a b e → Entrelace none (.prend :: a) b ((0, .prend) :: e)
  | prend1 (a b e) : Entrelace (some 1) a b e → Entrelace none a (.prend :: b) ((1, .prend) :: e)
  | rend0 (a b e) : Entrelace none a b e → Entrelace (some 0) (.rend :: a) b ((0, .rend) :: e)
  | rend1 (a b e) : Entrelace none a b e → Entrelace (some 1) a (.rend :: b) ((1, .rend) :: e)
  | acces0 (v x a b e) : (x = .lit ∨ x = .ecrit) → Entrelace v a b e → Entrelace v (x :: a) b ((0, x) :: e)
  | acces1 (v x a b e) : (x = .lit ∨ x = .ecrit) → Entrelace v a b e → Entrelace v a (x :: b) ((1, x) :: e)

/-- Data race: two accesses of two different threads with nothing between them, at least one of which is a write. -/
def Concurrent (e : List (ℕ × Action)) : Prop := ∃ a b t u x y, e = a ++ (t, x) :: (u, y) :: b ∧ t ≠ u ∧ (x = .ecrit ∧ (y = .lit ∨ y = .ecrit) ∨ x = .lit ∧ y = .ecrit)

/-- **C208, refuted for several threads.**  Reading the statistics while another thread starts or ends an operation, or starting operations in two threads, is a data race: some interleaving has two conflicting accesses to the table side by side, in spite of the lock taken by `stats`. -/
theorem C208_course_refute : (∃ e, Entrelace none actionsOp actionsStats e ∧ Concurrent e) ∧ (∃ e, Entrelace none actionsOp actionsOp e ∧ Concurrent e) := by
  refine ⟨⟨[(1, .prend), (1, .lit), (0, .ecrit), (1, .rend)], ?_, [(1, .prend)], [(1, .rend)], 1, 0, .lit, .ecrit, rfl, by decide, Or.inr ⟨rfl, rfl⟩⟩,
    ⟨[(0, .ecrit), (1, .ecrit)], ?_, [], [], 0, 1, .ecrit, .ecrit, rfl, by decide, Or.inl ⟨rfl, Or.inr rfl⟩⟩⟩
  · exact .prend1 _ _ _ (.acces1 _ _ _ _ _ (Or.inl rfl) (.acces0 _ _ _ _ _ (Or.inr rfl) (.rend1 _ _ _ (.fini _))))
  · exact .acces0 _ _ _ _ _ (Or.inr rfl) (.acces1 _ _ _ _ _ (Or.inr rfl) (.fini _))

end Verif.Moniteur
