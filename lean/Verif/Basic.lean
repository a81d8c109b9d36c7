/-
Shared helpers.
-/
deriving instance DecidableEq for Except
