import Verif.Model.Floating

/-! What a program on objects some of which are views means, without any tape. -/

namespace Pyadjoint.Floating

variable {V : Type*}

mutual
/-- Reading an object: a view is first computed from the objects it is a view of (themselves read in order, the view itself counting as a plain object
meanwhile).  Returns the value and the memory. -/
def read (cfg : Obj → View V) (act : List Obj) (o : Obj) (mem : Obj → V) : V × (Obj → V) :=
  if _h : o ∈ act then
    match (cfg o).block with
    | none => (mem o, mem)
    | some (args, fn) =>
      let r := readAll cfg (act.erase o) args mem
      (fn r.1, Function.update r.2 o (fn r.1))
  else (mem o, mem)
termination_by (act.length, 0)
decreasing_by
  have := List.length_erase_of_mem _h
  have := List.length_pos_of_mem _h
  apply Prod.Lex.left
  omega

/-- Reading several objects from left to right. -/
def readAll (cfg : Obj → View V) (act : List Obj) (os : List Obj) (mem : Obj → V) : List V × (Obj → V) :=
  match os with
  | [] => ([], mem)
  | o :: os =>
    let r := read cfg act o mem
    let r' := readAll cfg act os r.2
    (r.1 :: r'.1, r'.2)
termination_by (act.length, os.length + 1)
end

mutual
/-- Writing an object: a view then writes the objects it is a view of. -/
def write (cfg : Obj → View V) (act : List Obj) (o : Obj) (x : V) (mem : Obj → V) : Obj → V :=
  if _h : o ∈ act then
    match (cfg o).outBlock with
    | none => Function.update mem o x
    | some (args, outs, fn) =>
      let r := readAll cfg (act.erase o) args (Function.update mem o x)
      writeAll cfg (act.erase o) outs (fn r.1) 0 r.2
  else Function.update mem o x
termination_by (act.length, 0)
decreasing_by
  have := List.length_erase_of_mem _h
  have := List.length_pos_of_mem _h
  apply Prod.Lex.left
  omega

/-- Writing several objects from left to right; the `k`-th gets `f k`. -/
def writeAll (cfg : Obj → View V) (act : List Obj) (os : List Obj) (f : Nat → V) (k : Nat) (mem : Obj → V) : Obj → V :=
  match os with
  | [] => mem
  | o :: os => writeAll cfg act os f (k + 1) (write cfg act o (f k) mem)
termination_by (act.length, os.length + 1)
end

/-- An operation. -/
def exec (cfg : Obj → View V) (act : List Obj) (op : Op V) (mem : Obj → V) : Obj → V :=
  let r := readAll cfg act op.ins mem
  writeAll cfg act op.outs (op.fn r.1) 0 r.2

/-- A program. -/
def execAll (cfg : Obj → View V) (act : List Obj) (p : List (Op V)) (mem : Obj → V) : Obj → V :=
  p.foldl (fun mem op => exec cfg act op mem) mem

end Pyadjoint.Floating
