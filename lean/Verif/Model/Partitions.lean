import Verif.Model.Basic
/-
Model of include/opengm/utilities/partitions.hxx (class Partitions<I, L>). `w` is the number of bits of the unsigned type `I`,
`ws` that of `size_t`. Node labels are natural numbers (no overflow: they are smaller than the number of nodes). The static
vector `partitions` is the state.
-/
namespace OpenGM
namespace Partitions

/-- partitions.hxx 67-70 / 81-84: inner loop, `x` = `l[v1]`, the list = `l[0..v1)`. -/
def numInner (w x : Nat) : List Nat → Nat → Nat → Nat × Nat
  | [], indicator, base => (indicator, base)
  | y :: ys, indicator, base =>
    numInner w x ys ((indicator + base * (if x = y then 1 else 0)) % 2 ^ w) (base * 2 % 2 ^ w)

/-- partitions.hxx 66-71 / 80-85: outer loop; the first list holds the labels before `v1`. (For `v1 = 0` the inner loop does
nothing, so the loop may start there.) -/
def numOuter (w : Nat) : List Nat → List Nat → Nat → Nat → Nat
  | _, [], indicator, _ => indicator
  | pre, x :: xs, indicator, base =>
    numOuter w (pre ++ [x]) xs (numInner w x pre indicator base).1 (numInner w x pre indicator base).2

/-- partitions.hxx 62-73 and 75-87 `label2Number`. -/
def label2Number (w : Nat) (l : List Nat) : Nat := numOuter w [] l 0 (1 % 2 ^ w)

/-- partitions.hxx 96-98: `maxV`; the pair is (`maxV[0]`, the list of `maxV[1..N]`). -/
def maxV : List Nat → Nat × List Nat
  | [] => (0, [])
  | x :: xs => (max (maxV xs).1 x, (maxV xs).1 :: (maxV xs).2)

/-- partitions.hxx 101-105: position to increment; the lists are `l[p..N)` and `maxV[p+1..N]`. -/
def findPos (N : Nat) : Nat → List Nat → List Nat → Option Nat
  | _, [], _ => none
  | _, _ :: _, [] => none
  | p, x :: xs, m :: ms =>
    if x < N - 1 - p ∧ (p = N - 1 ∨ x ≤ m) then some p else findPos N (p + 1) xs ms

/-- partitions.hxx 107-113: increment position `p` and reset the positions before it. -/
def bump : List Nat → Nat → List Nat
  | [], _ => []
  | x :: xs, 0 => (x + 1) :: xs
  | _ :: xs, p + 1 => 0 :: bump xs p

/-- partitions.hxx 93-115 `increment`; `none` = false is returned. -/
def increment (l : List Nat) : Option (List Nat) :=
  match findPos l.length 0 l (maxV l).2 with
  | none => none
  | some p => some (bump l p)

/-- partitions.hxx 130-132: the loop; `none` = out of fuel. -/
def enumerate (w : Nat) : Nat → List Nat → List Nat → Option (List Nat)
  | fuel, l, out =>
    match increment l with
    | none => some out
    | some l' =>
      match fuel with
      | 0 => none
      | fuel + 1 => enumerate w fuel l' (out ++ [label2Number w l'])

/-- partitions.hxx 142 -/
def bell : List Nat :=
  [1, 1, 2, 5, 15, 52, 203, 877, 4140, 21147, 115975, 678570, 4213597, 27644437, 190899322, 1382958545]

/-- partitions.hxx 118-137 `buildPartitions(N)` = `resize(N)`. `std::sort` on numbers. The fuel of the loop is the length of the
enumeration, at most `N^N`. -/
def buildPartitions (w N : Nat) (parts : List Nat) : Outcome (List Nat) Unit :=
  match bell[N]? with
  | none => .ub
  | some b =>
    if parts.length ≥ b then .ok () parts
    else if N * (N - 1) / 2 > w then .throw parts
    else
      match enumerate w (N ^ N) (List.replicate N 0) [label2Number w (List.replicate N 0)] with
      | none => .ub
      | some out => .ok () (out.mergeSort (fun a b => decide (a ≤ b)))

/-- partitions.hxx 38-47 `number2Index`; `none` stands for the result `size_t(-1)`. -/
def number2Index (el : Nat) : List Nat → Option Nat
  | [] => none
  | x :: xs => if x = el then some 0 else (number2Index el xs).map (· + 1)

/-- partitions.hxx 49-60 `label2Index`. -/
def label2Index (w : Nat) (l : List Nat) (parts : List Nat) : Outcome (List Nat) (Option Nat) :=
  match buildPartitions w l.length parts with
  | .ub => .ub
  | .throw p => .throw p
  | .ok _ p => .ok (number2Index (label2Number w l) p) p

/-- partitions.hxx 29-34: inner loop of `getPartition`; the list is `l[0..v1)`, `c` is `l[v1]`. -/
def decodeInner (ws el : Nat) : List Nat → Nat → Nat → Nat × Nat
  | [], c, base => (c, base)
  | y :: ys, c, base => decodeInner ws el ys (if el &&& base = base then y else c) (base * 2 % 2 ^ ws)

/-- partitions.hxx 27-35: outer loop; the first argument counts the remaining positions. -/
def decodeOuter (ws el : Nat) : Nat → List Nat → Nat → List Nat
  | 0, pre, _ => pre
  | k + 1, pre, base =>
    decodeOuter ws el k (pre ++ [(decodeInner ws el pre pre.length base).1]) (decodeInner ws el pre pre.length base).2

/-- partitions.hxx 21-36 `getPartition(n, l)` with `l.size() == N`. -/
def getPartition (ws n N : Nat) (parts : List Nat) : Option (List Nat) :=
  match parts[n]? with
  | none => none
  | some el => if N = 0 then none else some (decodeOuter ws el (N - 1) [0] 1)

end Partitions
end OpenGM
