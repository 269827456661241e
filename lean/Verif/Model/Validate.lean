import Verif.Model.LogProb

/-! Model of the option `validate_args` of the constructors (distributions.py:40-51, 301-312, 337-339, 393-396, 449-456, 481-487).

The check itself is in `torch.distributions.Distribution.__init__`, which is not part of the repository; it is modelled after torch's source and trusted:

    for param, constraint in self.arg_constraints.items():
        value = getattr(self, param)
        valid = constraint.check(value)
        if not valid.all():
            raise ValueError

with `real.check(v) = (v == v)`, `nonnegative_integer.check(v) = (v % 1 == 0) & (v >= 0)`, `boolean.check(v) = (v == 0) | (v == 1)`.

Not modelled: the batch and event shapes, the text of the error messages, reading of attributes that are missing (every constructor sets the attributes that its class
constrains before it calls the base class). -/

noncomputable section
namespace Validate

/-- The values a caller passes: `None`, Python bools and ints, tensors of integers and of floats (flattened; a float is NaN or an extended real), and tuples of tensors
(distributions.py:449: the potentials of `SentCFG`). -/
inductive Val where
  | none
  | bool (b : Bool)
  | int (n : ℤ)
  | longs (xs : List ℤ)
  | floats (xs : List IEEE)
  | tuple (xs : List (List IEEE))

/-- The constraints that the classes use. (distributions.py:40-43, 301-306, 481-483) -/
inductive Constraint where
  | real | nonnegInt | boolean

/-- What `constraint.check` returns: a tensor of bools or a Python bool. (distributions.py:40-43) -/
inductive Checked where
  | mask (xs : List Bool)
  | flag (b : Bool)

open Classical in
/-- `constraint.check(value)`. `None % 1` and `tuple % 1` raise `TypeError`.  A tuple is equal to itself, because Python compares identical elements by identity.
(torch; distributions.py:40-43) -/
def check : Constraint → Val → Except PyErr Checked
  | .real, .floats xs => .ok (.mask (xs.map fun x => x.isSome))
  | .real, .longs xs => .ok (.mask (xs.map fun _ => true))
  | .real, _ => .ok (.flag true)
  | .nonnegInt, .none => .error .type
  | .nonnegInt, .tuple _ => .error .type
  | .nonnegInt, .bool _ => .ok (.flag true)
  | .nonnegInt, .int n => .ok (.flag (decide (0 ≤ n)))
  | .nonnegInt, .longs xs => .ok (.mask (xs.map fun n => decide (0 ≤ n)))
  | .nonnegInt, .floats xs => .ok (.mask (xs.map fun x => decide (∃ n : ℕ, x = some ((n : ℝ) : EReal))))
  | .boolean, .bool _ => .ok (.flag true)
  | .boolean, .int n => .ok (.flag (decide (n = 0 ∨ n = 1)))
  | .boolean, .longs xs => .ok (.mask (xs.map fun n => decide (n = 0 ∨ n = 1)))
  | .boolean, .floats xs => .ok (.mask (xs.map fun x => decide (x = some 0 ∨ x = some 1)))
  | .boolean, _ => .ok (.flag false)

/-- `valid.all()`: a Python bool has no method `all`. (torch; distributions.py:51) -/
def Checked.all : Checked → Except PyErr Bool
  | .mask xs => .ok (xs.all id)
  | .flag _ => .error .attribute

/-- The loop of `Distribution.__init__`. (torch; distributions.py:51) -/
def validate (attr : String → Val) : List (String × Constraint) → Except PyErr Unit
  | [] => .ok ()
  | (param, c) :: rest => do
    let valid ← check c (attr param)
    if ← valid.all then validate attr rest else .error .value

/-- The classes of distributions. (distributions.py:247, 280, 320, 344, 367, 399, 425, 459) -/
inductive Cls where
  | linearChain | alignment | hmm | semiMarkov | dependency | tree | sentCFG | nonProj
  deriving DecidableEq

/-- `arg_constraints` of the base class. (distributions.py:40-43) -/
def baseConstraints : List (String × Constraint) := [("log_potentials", .real), ("lengths", .nonnegInt)]

/-- `arg_constraints` of a class. (distributions.py:40-43, 301-306, 481-483) -/
def constraintsOf : Cls → List (String × Constraint)
  | .alignment => [("log_potentials", .real), ("local", .boolean), ("max_gap", .nonnegInt), ("lengths", .nonnegInt)]
  | .nonProj => [("log_potentials", .real)]
  | _ => baseConstraints

/-- The arguments of a constructor; `hmm` receives the potentials that `struct.hmm` has computed. (distributions.py:45, 309, 337-339, 393, 449, 485) -/
structure Args where
  potentials : Val
  lengths : Val := .none
  loc : Val := .bool false
  maxGap : Val := .none
  multiroot : Bool := true

/-- The attributes of the object. (distributions.py:48-49, 310-311, 452-453) -/
def attr (a : Args) (param : String) : Val :=
  if param = "log_potentials" then a.potentials else if param = "lengths" then a.lengths else if param = "local" then a.loc else a.maxGap

/-- A distribution object: its class and the attributes that the queries read. (distributions.py:48-50, 310-311, 452-453, 487) -/
structure Obj where
  cls : Cls
  args : Args

/-- A construction: the result and the attribute `multiroot` of the class `DepTree` afterwards.  `DependencyCRF.__init__` sets it after the base class has returned
(line 396). (distributions.py:45-51, 309-312, 337-339, 393-396, 449-456, 485-487) -/
def construct (c : Cls) (a : Args) (validateArgs : Bool) (flag : Option Bool) : Except PyErr Obj × Option Bool :=
  match (if validateArgs then validate (attr a) (constraintsOf c) else .ok ()) with
  | .error e => (.error e, flag)
  | .ok () => (.ok ⟨c, a⟩, if c = .dependency then some a.multiroot else flag)

end Validate
