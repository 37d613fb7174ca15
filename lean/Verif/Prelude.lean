import Mathlib.Tactic.Tauto
import Mathlib.Tactic.Ring
import Mathlib.Tactic.Linarith
import Mathlib.Tactic.Push
import Mathlib.Order.Defs.LinearOrder
/-! Tactics and order classes used throughout. -/
