import Verif.Model.FitsWcs

/-!
Model of the function `FitsWCS(file_name, dir, hdu, header, compression, text_file, suppress_warning)`:
fitswcs.py:924-1008, and of `readFromFitsHeader` for headers that name no class (wcs.py:1633-1658).  Headers are the
dictionaries of `Model/WCS.lean`; the values of the numeric keys are numbers.  Reading a file and
`GSFitsWCS._readHeader` are arbitrary partial functions: `none` is any exception.  `GSFitsWCS` is the only entry of
`fits_wcs_types` (fitswcs.py:917-921).  The tag that is set for the repr (fitswcs.py:988-997) is left out.
-/

namespace JG.FitsF

open JG.WCS

/-- What is returned: a uniform system or a celestial one, and whether a warning was given. -/
inductive Res (G : Type) where
  | uniform (w : WCS) (warned : Bool)
  | celestial (g : G)

/-- The exceptions: `GalSimIncompatibleValuesError`, and whatever reading the file raises. -/
inductive Err where
  | incompatible | io
  deriving DecidableEq

/-- The part after the header is known: fitswcs.py:962-1008. -/
noncomputable def ofHeader {G : Type} (gs : Header → Option G) (suppress : Bool) (h : Header) : Res G := by
  classical exact
  if (h "CTYPE1").isNone ∧ (h "CDELT1").isNone then .uniform (.loc (.pix 1)) (!suppress)
  else if (h "CTYPE1").getD (.str "LINEAR") = .str "LINEAR" then
    match readAffine h with
    | .off (.jac J) o u => .uniform (FitsW.simplifyLinear J o u) false
    | w => .uniform w false
  else
    match gs h with
    | some g => .celestial g
    | none => .uniform (readAffine h) (!suppress)

/-- `FitsWCS(...)`: fitswcs.py:924-1008; `read` is `fits.FitsHeader(file_name=..., ...)`. -/
noncomputable def fitsWCS {G : Type} (gs : Header → Option G) (read : String → Option Header)
    (fileName : Option String) (header : Option Header) (suppress : Bool) : Except Err (Res G) :=
  match fileName, header with
  | some _, some _ => .error .incompatible
  | some f, none =>
    match read f with
    | none => .error .io
    | some h => .ok (ofHeader gs suppress h)
  | none, none => .error .incompatible
  | none, some h => .ok (ofHeader gs suppress h)

/-- `readFromFitsHeader` of a header without `GS_WCS`, when the system found is uniform: wcs.py:1633-1658. -/
noncomputable def readUnnamed {G : Type} (gs : Header → Option G) (isLocal suppress : Bool) (h : Header) :
    Option (WCS × (ℝ × ℝ)) :=
  let xmin := h.getNum "GS_XMIN" 1
  let ymin := h.getNum "GS_YMIN" 1
  match fitsWCS gs (fun _ => none) none (some h) suppress with
  | .ok (.uniform w _) =>
    some (if xmin ≠ 1 ∨ ymin ≠ 1 then w.shiftOrigin isLocal (xmin - 1, ymin - 1) none else w, (xmin, ymin))
  | _ => none

end JG.FitsF
