import Verif.Model.PickleState

/-!
Model of `InterpolatedImage.withGSParams` with its dictionaries in a heap: interpolatedimage.py:126-196
(constructor), 342-354 (`tree_flatten`, `tree_unflatten`) and 356-369.  The constructor arguments are
kept in two mutable dictionaries, `_jax_aux_data` and `_jax_children[1]`, handed out by
`tree_flatten`.
-/

namespace JG.Pickle

/-- The keys of `_jax_aux_data`: interpolatedimage.py:139-158. -/
def auxKeys : List String :=
  ["x_interpolant", "k_interpolant", "normalization", "pad_factor", "noise_pad_size", "noise_pad",
    "rng", "calculate_stepk", "calculate_maxk", "use_cache", "use_true_center", "depixelize",
    "gsparams", "_force_stepk", "_force_maxk", "_recenter_image", "hdu"]

/-- The keys of `_jax_children[1]` but `_obj`: interpolatedimage.py:131-137. -/
def kidKeys : List String := ["scale", "wcs", "flux", "pad_image", "offset"]

/-- The two dictionaries of an interpolated image; the pixels are opaque and not shown. -/
structure IObj where
  aux : ℕ
  kids : ℕ

/-- `val.update(d)`. -/
def Dict.update {α : Type} (val d : Dict α) : Dict α := d.foldl (fun v e => v.put e.1 e.2) val

/-- `dict(k=val[k], ...)` for the keyword arguments `val`; a keyword that is not given has its default
value.  Simplification: one default value `dflt k` per keyword. -/
def named {α : Type} (dflt : String → Val α) (val : Dict α) (keys : List String) : Dict α :=
  keys.map fun k => (k, (val.get k).getD (dflt k))

/-- `cls(image, **val)`: interpolatedimage.py:129-196.  Both dictionaries are new.  `obj` makes the
wrapped object out of the arguments: the given `_obj` with the `gsparams` of the arguments, or a new
one; it is stored under `_obj` (line 196). -/
def construct {α : Type} (dflt : String → Val α) (obj : Dict α → Val α) (h : Heap α) (val : Dict α) :
    IObj × Heap α :=
  let h1 := h ++ [named dflt val kidKeys]
  let h2 := h1 ++ [named dflt val auxKeys]
  (⟨h.length + 1, h.length⟩, h2.mutate h.length fun x => x.put "_obj" (obj val))

/-- `tree_flatten`: interpolatedimage.py:342-345; the children are shared, the auxiliary data copied. -/
def flatten {α : Type} (h : Heap α) (o : IObj) : Option (ℕ × ℕ × Heap α) :=
  (h.copy o.aux).map fun p => (o.kids, p.1, p.2)

/-- `tree_unflatten(aux_data, children)`: interpolatedimage.py:347-353. -/
def unflatten {α : Type} (dflt : String → Val α) (obj : Dict α → Val α) (h : Heap α) (aux kids : ℕ) :
    Option (IObj × Heap α) :=
  match h[aux]?, h[kids]? with
  | some a, some k => some (construct dflt obj h ((Dict.update [] a).update k))
  | _, _ => none

/-- `withGSParams` with other parameters than its own: interpolatedimage.py:360-369.  `g` is the
result of `GSParams.check` (C14). -/
def withGS {α : Type} (dflt : String → Val α) (obj : Dict α → Val α) (h : Heap α) (o : IObj)
    (g : Val α) : Option (IObj × Heap α) :=
  match flatten h o with
  | none => none
  | some (kids, aux, h) =>
    let h := h.mutate aux fun x => x.put "gsparams" g
    unflatten dflt obj h aux kids

end JG.Pickle
