import Verif.Py.Dict
import Verif.Py.Basic

/-!
# Model of the exception hierarchy

`src/lionherd_core/errors.py`: what a `LionherdError` carries and how it is written to a dict.  A class is given by its method resolution
order: the namespaces of the subclasses in front of `LionherdError`.  Details have values of any type `ω`; a cause is any exception `χ`
with its truth value (`__bool__`/`__len__` may be defined by a subclass of `Exception`).  Not modelled: tracebacks.
-/

namespace Verif.Errors

variable {ω χ : Type}

/-- The namespace of one class: its name and the defaults it sets itself, `errors.py:24-34, 75-128`. -/
structure Cls where
  name : String
  message : Option String := none
  retryable : Option Bool := none
  deriving DecidableEq, Repr

/-- The class variables of `LionherdError`, `errors.py:33-34`. -/
def baseMessage : String := "Lionherd error"

/-- `default_retryable` of `LionherdError`, `errors.py:34`. -/
def baseRetryable : Bool := true

/-- `self.default_message`, `errors.py:52`: the first class of the resolution order that sets it. -/
def defaultMessage : List Cls → String
  | [] => baseMessage
  | c :: cs =>
    match c.message with
    | some s => s
    | none => defaultMessage cs

/-- `self.default_retryable`, `errors.py:54`. -/
def defaultRetryable : List Cls → Bool
  | [] => baseRetryable
  | c :: cs =>
    match c.retryable with
    | some b => b
    | none => defaultRetryable cs

/-- `self.__class__.__name__`, `errors.py:68`. -/
def clsName : List Cls → String
  | [] => "LionherdError"
  | c :: _ => c.name

/-- The attributes of an error.  `same` tells whether `details` is the dict object that the caller passed. Serves `init` (`errors.py:36-59`). -/
structure Err (ω χ : Type) where
  mro : List Cls
  message : String
  details : Dict String ω
  same : Bool
  retryable : Bool
  cause : Option χ

/-- `message or self.default_message`, `errors.py:52`. -/
def pickMessage (mro : List Cls) : Option String → String
  | none => defaultMessage mro
  | some s => if s = "" then defaultMessage mro else s

/-- `details or {}`, `errors.py:53`. -/
def pickDetails : Option (Dict String ω) → Dict String ω
  | none => []
  | some d => d

/-- Whether `details or {}` is the dict that was passed, `errors.py:53`. -/
def keepsDict : Option (Dict String ω) → Bool
  | none => false
  | some d => !d.isEmpty

/-- `retryable if retryable is not None else self.default_retryable`, `errors.py:54`. -/
def pickRetryable (mro : List Cls) : Option Bool → Bool
  | none => defaultRetryable mro
  | some b => b

/-- `if cause: self.__cause__ = cause`, `errors.py:56-57`. -/
def pickCause (truthy : χ → Bool) : Option χ → Option χ
  | none => none
  | some c => if truthy c then some c else none

/-- `LionherdError.__init__`, `errors.py:36-59`. -/
def init (truthy : χ → Bool) (mro : List Cls) (message : Option String) (details : Option (Dict String ω)) (retryable : Option Bool)
    (cause : Option χ) : Err ω χ where
  mro := mro
  message := pickMessage mro message
  details := pickDetails details
  same := keepsDict details
  retryable := pickRetryable mro retryable
  cause := pickCause truthy cause

/-- A value of the dict of an error. Serves `toDict` (`errors.py:61-72`). -/
inductive Field (ω : Type) where
  | text (s : String)
  | flag (b : Bool)
  | dict (d : Dict String ω)

/-- `{"details": self.details} if self.details else {}`, `errors.py:71`. -/
def detailsField (d : Dict String ω) : Dict String (Field ω) := if d.isEmpty then [] else [("details", .dict d)]

/-- `LionherdError.to_dict`, `errors.py:61-72`. -/
def toDict (e : Err ω χ) : Dict String (Field ω) :=
  [("error", .text (clsName e.mro)), ("message", .text e.message), ("retryable", .flag e.retryable)] ++ detailsField e.details

/-- `ValidationError`, `errors.py:75-79`. -/
def validationError : Cls := ⟨"ValidationError", some "Validation failed", some false⟩
/-- `ConfigurationError`, `errors.py:82-86`. -/
def configurationError : Cls := ⟨"ConfigurationError", some "Configuration error", some false⟩
/-- `ExecutionError`, `errors.py:89-93`. -/
def executionError : Cls := ⟨"ExecutionError", some "Execution failed", some true⟩
/-- `ConnectionError`, `errors.py:96-100`. -/
def connectionError : Cls := ⟨"ConnectionError", some "Connection error", some true⟩
/-- `TimeoutError`, `errors.py:103-107`. -/
def timeoutError : Cls := ⟨"TimeoutError", some "Operation timed out", some true⟩
/-- `NotFoundError`, `errors.py:110-114`. -/
def notFoundError : Cls := ⟨"NotFoundError", some "Item not found", some false⟩
/-- `ExistsError`, `errors.py:117-121`. -/
def existsError : Cls := ⟨"ExistsError", some "Item already exists", some false⟩
/-- `QueueFullError`, `errors.py:124-128`. -/
def queueFullError : Cls := ⟨"QueueFullError", some "Queue is full", some true⟩

end Verif.Errors
