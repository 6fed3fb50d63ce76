/-! Independent specification for the LFSR properties: linear recurring binary sequences. -/
namespace Verif.Lfsr

/-- `b` is a linear recurring sequence of order `n` with taps `pol`: each bit is 1 exactly when an odd number of the
tapped bits among the `n` previous ones are 1 (bit `k` of `pol` taps the bit `n - k` positions earlier). -/
def Recurrence (n pol : Nat) (b : Nat → Bool) : Prop :=
  ∀ t, b (t + n) = decide ((List.range n).countP (fun k => pol.testBit k && b (t + k)) % 2 = 1)

/-- No 6 consecutive `true` in the list. -/
def SansRafale6 (e : List Bool) : Prop := ¬ List.replicate 6 true <:+: e

end Verif.Lfsr
