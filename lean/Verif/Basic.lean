/-!
# Shared vocabulary

Errors thrown by the C code (`THROW(<Kind>Error, ...)`, src/common/error/error.auto.h) and an explicit
outcome for undefined behaviour. Error messages are not modelled.
-/

namespace Verif

/-- Error kinds used by the modelled code (src/build/error/error.yaml names them). `ub` is not an error of
the C program: it marks an execution that has undefined behaviour (e.g. an out of bounds access). -/
inductive Err where
  | assert | checksum | config | crypto | fileInvalid | format | jsonFormat | protocol | version
  | fileMissing | fileOpen | fileRead | fileWrite | pathMissing | pathCreate | pathNotEmpty | pathOpen
  | archiveDuplicate | archiveTimeout | archiveMismatch | archiveMissing | backupMismatch | backupSetInvalid
  | optionInvalid | optionInvalidValue | optionRequired | lockAcquire | linkDestination | linkMap
  | tablespaceMap | dbMissing | dbInvalid | dbMismatch | dbQuery | pgRunning | fileExists | repoInvalid
  | commandRequired | stop | clock | unknown | service | timelineInvalid | command | ub
  deriving DecidableEq, Repr

/-- Result of a modelled function: a value or a thrown error (or `Err.ub`). -/
abbrev Res (α : Type) := Except Err α

instance {α : Type} [DecidableEq α] : DecidableEq (Res α)
  | .ok a, .ok b => if h : a = b then isTrue (by rw [h]) else isFalse (fun he => h (Except.ok.inj he))
  | .error a, .error b => if h : a = b then isTrue (by rw [h]) else isFalse (fun he => h (Except.error.inj he))
  | .ok _, .error _ => isFalse (fun h => by cases h)
  | .error _, .ok _ => isFalse (fun h => by cases h)

end Verif
