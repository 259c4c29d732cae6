import Mathlib.Logic.Function.Basic
import Mathlib.Data.List.Basic

/-!
Model of the FITS writers, `/repo/jax_galsim/fits.py`.

Objects live on a heap.  Of an image only the two attributes the code replaces are modelled: its
class and its array object.  Every operation that can raise is controlled by an arbitrary choice of
crash points; the upstream writer is an arbitrary function of the heap, which may raise and may
itself change any object.
-/

namespace JG.Fits

/-- Classes of Python objects: `jax_galsim.Image` or one of its subclasses, upstream
`galsim.Image`, a `jax.Array`, anything else. -/
inductive Cls where
  | jaxImage (sub : ℕ)
  | galImage
  | jaxArray
  | other (n : ℕ)
deriving DecidableEq

/-- Array objects: some original object, or the new object made by `np.array(x)`. -/
inductive Arr where
  | orig (id : ℕ)
  | npCopy (of : Arr)
deriving DecidableEq

/-- The attributes `__class__` and `_array` of an object. -/
@[ext] structure Obj where
  cls : Cls
  arr : Arr
deriving DecidableEq

/-- Objects by address. -/
abbrev Heap := ℕ → Obj

/-- Where, if anywhere, `_image_as_numpy` is interrupted while it enters one image: reading
`_array`, converting to numpy, an asynchronous exception (such as `KeyboardInterrupt`) after
`_array` has been replaced and before `old_class` is bound, or assigning `__class__`:
fits.py:60-66. -/
inductive Crash where
  | no | read | convert | interrupt | setClass
deriving DecidableEq

/-- The first half of `_image_as_numpy` on an image, up to the `yield`: fits.py:58-67.  `.ok` has
the new heap and the saved class and array; `.error` the heap after the `finally` clause ran.  If
`old_class` is not bound yet, that clause raises at its first line and restores nothing
(fits.py:69-70).  Assigning the old class and array back is assumed not to raise. -/
def enterImage (cr : Crash) (a : ℕ) (h : Heap) : Except Heap (Heap × Obj) :=
  match cr with
  | .read => .error h
  | .convert => .error h
  | _ =>
    let orig := (h a).arr
    let h1 := Function.update h a ⟨(h a).cls, .npCopy orig⟩
    if cr = .interrupt then .error h1
    else
      let old := (h1 a).cls
      if cr = .setClass then .error (Function.update h1 a ⟨old, orig⟩)
      else .ok (Function.update h1 a ⟨.galImage, (h1 a).arr⟩, ⟨old, orig⟩)

/-- The `finally` clause after the `yield`: fits.py:68-70. -/
def exitImage (a : ℕ) (saved : Obj) (h : Heap) : Heap := Function.update h a saved

/-- Unwinding an `ExitStack`, last entered first: fits.py:90, 107. -/
def unwind : List (ℕ × Obj) → Heap → Heap
  | [], h => h
  | (a, o) :: s, h => unwind s (exitImage a o h)

/-- The list comprehensions of `writeMulti` and `writeCube`: fits.py:91-98, 109-116.  `isinstance` is
evaluated on the present class, so an image met again is passed as it is.  `arrays` says whether
`jax.Array` elements are converted too (`writeCube`); that makes a new object and may raise.
The crash point is given per element. -/
def enterAll (arrays : Bool) (crash : ℕ → Crash) :
    List ℕ → ℕ → Heap → List (ℕ × Obj) → Except (Heap × List (ℕ × Obj)) (Heap × List (ℕ × Obj))
  | [], _, h, s => .ok (h, s)
  | a :: l, i, h, s =>
    match (h a).cls with
    | .jaxImage _ =>
      match enterImage (crash i) a h with
      | .ok (h', saved) => enterAll arrays crash l (i + 1) h' ((a, saved) :: s)
      | .error h' => .error (h', s)
    | .jaxArray =>
      if arrays = true ∧ crash i ≠ .no then .error (h, s) else enterAll arrays crash l (i + 1) h s
    | _ => enterAll arrays crash l (i + 1) h s

/-- `writeMulti` (`arrays = false`) and `writeCube` on a list (`arrays = true`): fits.py:88-101,
105-121.  The result is the final heap and whether the call returned normally. -/
def writeList (arrays : Bool) (crash : ℕ → Crash) (body : Heap → Heap × Bool) (l : List ℕ) (h : Heap) :
    Heap × Bool :=
  match enterAll arrays crash l 0 h [] with
  | .error (h', s) => (unwind s h', false)
  | .ok (h', s) => (unwind s (body h').1, (body h').2)

/-- `write` with a positional first argument: fits.py:79-84. -/
def write (crash : Crash) (body : Heap → Heap × Bool) (a : ℕ) (h : Heap) : Heap × Bool :=
  match (h a).cls with
  | .jaxImage _ =>
    match enterImage crash a h with
    | .error h' => (h', false)
    | .ok (h', saved) => (exitImage a saved (body h').1, (body h').2)
  | _ => body h

/-- `_maybe_convert_and_warn` on the dtype name: fits.py:16-27. -/
def readDtype (valid : List String) (dtype : String) : String :=
  if dtype ∈ valid then dtype else "float64"

end JG.Fits
