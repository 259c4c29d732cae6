import Verif.Model.GSParams

/-!
Model of the pickling protocol of the objects: `__getstate__` and `__setstate__` of `GSObject`
(gsobject.py:34-43), `Interpolant` (interpolant.py:34-43), the wrapper of `InterpolatedImage`
(interpolatedimage.py:553-557) and `GSParams` (gsparams.py:118-139).

Python dictionaries are mutable and shared by reference, so they live in a heap; an object is the
reference of its `__dict__` (simplification: an object is identified with its dictionary, no two
objects share one to begin with).
-/

namespace JG.Pickle

/-- The values held by an attribute: a boolean, a dictionary `_workspace` with its entries, or any
other value, which is opaque. -/
inductive Val (α : Type) where
  | bool (b : Bool)
  | workspace (entries : List α)
  | attr (a : α)

/-- `if v:` on the values that `had_workspace` may take.  Simplification: an opaque value is true;
no code of /repo stores one under `had_workspace`. -/
def Val.truthy {α : Type} : Val α → Bool
  | .bool b => b
  | .workspace l => !l.isEmpty
  | .attr _ => true

/-- A python dictionary with string keys in insertion order. -/
abbrev Dict (α : Type) := List (String × Val α)

/-- `d.get(k)`. -/
def Dict.get {α : Type} (d : Dict α) (k : String) : Option (Val α) :=
  match d with
  | [] => none
  | (k', v) :: rest => if k' = k then some v else Dict.get rest k

/-- `k in d`. -/
def Dict.mem {α : Type} (d : Dict α) (k : String) : Bool := (d.get k).isSome

/-- `d[k] = v`: in place when present, at the end otherwise. -/
def Dict.put {α : Type} (d : Dict α) (k : String) (v : Val α) : Dict α :=
  match d with
  | [] => [(k, v)]
  | (k', v') :: rest => if k' = k then (k, v) :: rest else (k', v') :: Dict.put rest k v

/-- The dictionary left by `d.pop(k, default)`. -/
def Dict.drop {α : Type} (d : Dict α) (k : String) : Dict α :=
  d.filter fun e => e.1 ≠ k

/-- The heap of dictionaries; a reference is a position. -/
abbrev Heap (α : Type) := List (Dict α)

/-- `d.copy()`: a new dictionary with the entries of the one at `r`. -/
def Heap.copy {α : Type} (h : Heap α) (r : ℕ) : Option (ℕ × Heap α) :=
  match h[r]? with
  | none => none
  | some d => some (h.length, h ++ [d])

/-- A mutation of the dictionary at `r`. -/
def Heap.mutate {α : Type} (h : Heap α) (r : ℕ) (f : Dict α → Dict α) : Heap α := h.modify r f

/-- `k in d` for the dictionary at `r`. -/
def Heap.has {α : Type} (h : Heap α) (r : ℕ) (k : String) : Bool :=
  match h[r]? with
  | none => false
  | some d => d.mem k

/-- The classes with a `__getstate__` that returns a dictionary. -/
inductive Cls where
  | gsobject
  | interpolant
  | interpImage
  deriving DecidableEq

/-- `GSObject.__getstate__` gsobject.py:34-38 and `Interpolant.__getstate__` interpolant.py:34-38;
`InterpolatedImage.__getstate__` interpolatedimage.py:553-554.  The result is the reference of the
state and the heap. -/
def getstate {α : Type} (c : Cls) (h : Heap α) (self : ℕ) : Option (ℕ × Heap α) :=
  match h.copy self with
  | none => none
  | some (d, h) =>
    match c with
    | .interpImage => some (d, h)
    | .gsobject | .interpolant =>
      let h := h.mutate d fun x => x.put "had_workspace" (.bool (h.has d "_workspace"))
      let h := h.mutate d fun x => x.drop "_workspace"
      some (d, h)

/-- `GSObject.__setstate__` gsobject.py:40-43 and `Interpolant.__setstate__` interpolant.py:40-43;
`InterpolatedImage.__setstate__` interpolatedimage.py:556-557.  The object takes the dictionary at
`d` as its own, so its reference is `d`. -/
def setstate {α : Type} (c : Cls) (h : Heap α) (d : ℕ) : Heap α :=
  match c with
  | .interpImage => h
  | .gsobject | .interpolant =>
    let had : Bool := match h[d]? with
      | none => false
      | some x => match x.get "had_workspace" with
        | none => false
        | some v => v.truthy
    let h := h.mutate d fun x => x.drop "had_workspace"
    if had then h.mutate d fun x => x.put "_workspace" (.workspace []) else h

/-- `copy.copy(obj)`: python's protocol, a new object of the class on which `__setstate__` is called
with the result of `__getstate__`. -/
def copyObj {α : Type} (c : Cls) (h : Heap α) (self : ℕ) : Option (ℕ × Heap α) :=
  (getstate c h self).map fun p => (p.1, setstate c p.2 p.1)

/-- `pickle.dumps(obj)`: the contents of the state, with the heap left by `__getstate__`. -/
def dumps {α : Type} (c : Cls) (h : Heap α) (self : ℕ) : Option (Dict α × Heap α) :=
  match getstate c h self with
  | none => none
  | some (d, h) => h[d]?.map fun x => (x, h)

/-- `pickle.loads` in a process with heap `h`: a new dictionary with the contents of the state, then
`__setstate__`. -/
def loads {α : Type} (c : Cls) (h : Heap α) (x : Dict α) : ℕ × Heap α :=
  (h.length, setstate c (h ++ [x]) h.length)

/-- The fields of the dataclass in the order of its `__init__`: gsparams.py:11-23. -/
def dataclassFields : List GSField :=
  [.minimum_fft_size, .maximum_fft_size, .folding_threshold, .stepk_minimum_hlr, .maxk_threshold,
    .kvalue_accuracy, .xvalue_accuracy, .table_spacing, .realspace_relerr, .realspace_abserr,
    .integration_relerr, .integration_abserr, .shoot_accuracy]

/-- The defaults of the dataclass: gsparams.py:11-23. -/
noncomputable def dataclassDefault : GSP
  | .minimum_fft_size => 128
  | .maximum_fft_size => 8192
  | .folding_threshold => 5.0e-3
  | .stepk_minimum_hlr => 5.0
  | .maxk_threshold => 1.0e-3
  | .kvalue_accuracy => 1.0e-5
  | .xvalue_accuracy => 1.0e-5
  | .table_spacing => 1
  | .realspace_relerr => 1.0e-4
  | .realspace_abserr => 1.0e-6
  | .integration_relerr => 1.0e-6
  | .integration_abserr => 1.0e-8
  | .shoot_accuracy => 1.0e-5

/-- `_getinitargs`: gsparams.py:118-133, which is also `__getstate__` gsparams.py:135-136. -/
def initargs (g : GSP) : List ℝ :=
  [g .minimum_fft_size, g .maximum_fft_size, g .folding_threshold, g .stepk_minimum_hlr,
    g .maxk_threshold, g .kvalue_accuracy, g .xvalue_accuracy, g .table_spacing,
    g .realspace_relerr, g .realspace_abserr, g .integration_relerr, g .integration_abserr,
    g .shoot_accuracy]

/-- The `__init__` generated by `@dataclass` with positional arguments: each argument is stored in
the field of its position, missing ones take the default; `none` (`TypeError`): too many arguments.
This is `__setstate__` gsparams.py:138-139. -/
def init (dflt : GSP) : List GSField → List ℝ → Option GSP
  | _, [] => some dflt
  | [], _ :: _ => none
  | f :: fs, v :: vs => (init dflt fs vs).map fun g f' => if f' = f then v else g f'

/-- `GSParams.__setstate__`: gsparams.py:138-139. -/
noncomputable def gspSetstate (state : List ℝ) : Option GSP :=
  init dataclassDefault dataclassFields state

end JG.Pickle
