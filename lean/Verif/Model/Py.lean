/-! Values standing for the Python exceptions that the modelled code can raise. -/
set_option autoImplicit false
namespace WTM

/-- The exceptions (and `sys.exit`) that the modelled functions can end with.
Which source line raises which one is said at each use. -/
inductive PyErr
  /-- `sys.exit()` (paramsheets.py:93) -/
  | sysExit
  /-- `IndexError` -/
  | indexError
  /-- `KeyError` -/
  | keyError
  /-- `EOFError` from `input()` when no more answers are available -/
  | eofError
  /-- `UnboundLocalError` -/
  | unboundLocal
  /-- `TypeError` -/
  | typeError
  /-- `ValueError` -/
  | valueError
  /-- `AttributeError` -/
  | attributeError
  /-- `ZeroDivisionError`, or a numpy division by zero yielding inf/nan -/
  | zeroDivision
  deriving DecidableEq, Repr

end WTM
