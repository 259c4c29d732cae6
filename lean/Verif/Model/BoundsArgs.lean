import Verif.Model.Bounds

/-!
Model of the arguments of `BoundsI(...)` and `BoundsD(...)`: `_parse_args`, bounds.py:48-129.  Numbers are those of the
class (a `BoundsI` of other numbers raises `TypeError`, bounds.py:504-527, and is left out), the two coordinates of a
position are of the same kind, as are those of two positions given together.  A `Bounds` argument is one of the same
class; the conversion from the other class is `Bounds.toI`, `Bounds.toD` of `Model/Bounds.lean`.
-/

namespace JG

/-- A positional argument. -/
inductive BArg (α : Type) where
  | num (s : Scal α)
  | pos (p : Pos α) (py : Bool)
  | bounds (b : Bounds α)
  | other

/-- The keyword arguments; `extra`: there are others. -/
structure BKw (α : Type) where
  xmin : Option (Scal α)
  xmax : Option (Scal α)
  ymin : Option (Scal α)
  ymax : Option (Scal α)
  deltax : Option (Scal α)
  deltay : Option (Scal α)
  extra : Bool

/-- `len(kwargs) == 0`. -/
def BKw.isEmpty {α : Type} (k : BKw α) : Bool :=
  k.xmin.isNone && k.xmax.isNone && k.ymin.isNone && k.ymax.isNone && k.deltax.isNone && k.deltay.isNone && !k.extra

variable {α : Type} [CommRing α] [LinearOrder α]

/-- Two positions: bounds.py:82-88. -/
def Bounds.ofTwo (c : Cls α) (p q : Pos α) (py : Bool) : Bounds α :=
  Bounds.mk4 c ⟨min p.x q.x, py⟩ ⟨max p.x q.x, py⟩ ⟨min p.y q.y, py⟩ ⟨max p.y q.y, py⟩

/-- The positional arguments: bounds.py:49-98; `none` is the `TypeError`. -/
def Bounds.ofArgs (c : Cls α) : List (BArg α) → Option (Bounds α)
  | [] => some (Bounds.empty c)
  | [.bounds b] => some (b.copy c)
  | [.pos p py] => some (Bounds.ofPos c p py)
  | [.pos p py, .pos q qy] => some (Bounds.ofTwo c p q (py && qy))
  | [.num x, .num x', .num y, .num y'] => some (Bounds.mk4 c x x' y y')
  | _ => none

/-- The keyword arguments: bounds.py:105-129; what is left after the `pop`s is unexpected. -/
def Bounds.ofKw (c : Cls α) (k : BKw α) : Option (Bounds α) :=
  match k.xmin, k.ymin with
  | some x, some y =>
    match k.xmax, k.ymax, k.deltax, k.deltay with
    | some x', some y', dx, dy =>
      if dx.isSome || dy.isSome || k.extra then none else some (Bounds.mk4 c x x' y y')
    | x', y', some dx, some dy =>
      if x'.isSome || y'.isSome || k.extra then none else some (Bounds.mkDelta c x dx y dy)
    | _, _, _, _ => none
  | _, _ => none

/-- `_parse_args(*args, **kwargs)`: bounds.py:48-129. -/
def Bounds.parse (c : Cls α) (args : List (BArg α)) (k : BKw α) : Option (Bounds α) :=
  if k.isEmpty then Bounds.ofArgs c args
  else if args.length ≠ 0 then none
  else Bounds.ofKw c k

end JG
