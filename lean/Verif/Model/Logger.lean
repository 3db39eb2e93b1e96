import Verif.Model.Basic
import Mathlib.Tactic.Common

/-!
# Model of `src/pysr3/logger.py`

Values are kept abstract (`V`); what matters to the code is only whether the stored object is a `list` (`type(...) == list`).
`self.keys` is whatever collection the caller passed, so its kind (tuple, list, set) is part of the state.
A raised exception loses the state (in Python `add` has already written `self.dict[key]` when the concatenation fails; nothing in the library
looks at a logger after that).
-/

namespace Verif

/-- An object stored under a key: a Python list, or anything else. -/
inductive LVal (V : Type*) where
  | list (l : List V)
  | atom (v : V)

/-- The kind of collection stored in `self.keys`. -/
inductive KeyColl where
  | tuple
  | list
  | set
deriving DecidableEq

/-- State of a `Logger` (`logger.py:4-18`): the attributes `keys` (kind and elements in iteration order) and `dict`. -/
structure Logger (V : Type*) where
  kind : KeyColl
  keys : List String
  dict : String → Option (LVal V)

variable {V : Type*}

/-- `Logger.__init__` (`logger.py:8-18`): `self.dict = {key: [] for key in list_of_keys}`. -/
def Logger.init (kind : KeyColl) (keys : List String) : Logger V where
  kind := kind
  keys := keys
  dict := fun k => if k ∈ keys then some (.list []) else none

/-- One turn of the loop in `Logger.log` (`logger.py:34-36`). -/
def Logger.logKey (params : String → Option V) (d : String → Option (LVal V)) (key : String) :
    Except PyErr (String → Option (LVal V)) :=
  match d key with
  | none => .error .keyError
  | some (.atom _) => .ok d
  | some (.list l) =>
    match params key with
    | none => .ok d
    | some v => .ok (Function.update d key (some (.list (l ++ [v]))))

/-- `Logger.log` (`logger.py:20-37`). -/
def Logger.log (L : Logger V) (params : String → Option V) : Except PyErr (Logger V) := do
  let d ← L.keys.foldlM (Logger.logKey params) L.dict
  return { L with dict := d }

/-- `Logger.add` (`logger.py:39-57`): `self.keys + tuple([key])` is a `TypeError` unless `self.keys` is a tuple. -/
def Logger.add (L : Logger V) (key : String) (value : LVal V) : Except PyErr (Logger V) :=
  let d := Function.update L.dict key (some value)
  if key ∈ L.keys then .ok { L with dict := d }
  else
    match L.kind with
    | .tuple => .ok { L with keys := L.keys ++ [key], dict := d }
    | _ => .error .typeError

/-- Python's `+=` on the stored objects: lists are extended by lists, other objects are added. -/
def LVal.iadd [Add V] : LVal V → LVal V → Except PyErr (LVal V)
  | .list l, .list l' => .ok (.list (l ++ l'))
  | .atom a, .atom b => .ok (.atom (a + b))
  | _, _ => .error .typeError

/-- `Logger.append` (`logger.py:59-75`): `self.dict[key] += value`. -/
def Logger.append [Add V] (L : Logger V) (key : String) (value : LVal V) : Except PyErr (Logger V) :=
  match L.dict key with
  | none => .error .keyError
  | some v => do
    let v' ← v.iadd value
    return { L with dict := Function.update L.dict key (some v') }

/-- `Logger.get` (`logger.py:77-90`). -/
def Logger.get (L : Logger V) (key : String) : Except PyErr (LVal V) :=
  match L.dict key with
  | none => .error .keyError
  | some v => .ok v

end Verif
