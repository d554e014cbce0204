import Verif.Model.Options

/-!
# Parameter dictionaries with any keys

Models `flatten_parameters` (`pyadjoint/optimization/tao_solver.py:133-196`) for dictionaries whose keys need not be strings.
-/

namespace Pyadjoint
namespace Opts

/-- A key of a dictionary, as far as the code looks at it: a string; an object with `__len__` but without `endswith`, such as a tuple; an object without
`__len__`, such as a number or `None`.  `text` is `str(key)`.  `tao_solver.py:183-186, 191`. -/
inductive PyKey
  | str (k : Key)
  | sized (empty : Bool) (text : Key)
  | unsized (text : Key)

/-- `str(key)` (`tao_solver.py:191`). -/
def PyKey.text : PyKey → Key
  | .str k => k
  | .sized _ t => t
  | .unsized t => t

/-- Exceptions of `munge`.  `tao_solver.py:183`. -/
inductive KeyErr | typeError | attributeError
  deriving DecidableEq

mutual
/-- A value of a parameter dictionary with any keys.  `tao_solver.py:162-176`. -/
inductive AVal (α : Type) where
  | leaf (a : α)
  | dict (d : ADict α)
/-- A Python dictionary with any keys.  `tao_solver.py:133-199`. -/
inductive ADict (α : Type) where
  | nil
  | cons (k : PyKey) (v : AVal α) (d : ADict α)
end

variable {α : Type}

mutual
/-- `flatten` (`tao_solver.py:162-176`); it does not look at the keys. -/
def aflattenVal : AVal α → List PyKey → List (List PyKey × AVal α)
  | .leaf a, ps => [(ps, .leaf a)]
  | .dict .nil, ps => [(ps, .dict .nil)]
  | .dict (.cons k v d), ps => aflattenVal v (k :: ps) ++ aflattenDict d ps
/-- The loop of `tao_solver.py:167-170`. -/
def aflattenDict : ADict α → List PyKey → List (List PyKey × AVal α)
  | .nil, _ => []
  | .cons k v d, ps => aflattenVal v (k :: ps) ++ aflattenDict d ps
end

/-- One intermediate key of `munge`: `len(key) and not key.endswith(sep)` (`tao_solver.py:182-186`). -/
def aaddSep (sep : Key) : PyKey → Except KeyErr Key
  | .str k => .ok (addSep sep k)
  | .sized true t => .ok t
  | .sized false _ => .error .attributeError
  | .unsized _ => .error .typeError

/-- `"".join(map(str, munge(keys)))` (`tao_solver.py:178-188, 191`). -/
def amunge (sep : Key) : List PyKey → Except KeyErr Key
  | [] => .ok []
  | key :: keys => match keys.reverse.mapM (aaddSep sep) with
    | .error e => .error e
    | .ok ks => .ok (ks.flatten ++ key.text)

/-- `flatten_parameters` (`tao_solver.py:133-196`). -/
def aflattenParameters (sep : Key) (d : ADict α) : Except KeyErr (List (Key × AVal α)) :=
  (aflattenDict d []).foldlM (fun new p => match amunge sep p.1 with
    | .error e => .error e
    | .ok k => .ok (assign new k p.2)) []

end Opts
end Pyadjoint
