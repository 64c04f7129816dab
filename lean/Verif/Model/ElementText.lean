import Verif.Model.Element
import Verif.Model.JsonDump

/-!
# Model of `Element.to_json` and `Element.from_json` (`src/lionherd_core/base/element.py:217-251`)

The text is that of the JSON writer and reader of `Verif/Model/Json.lean`.  What a single value other than an id, a time, a text or the metadata becomes in
JSON is a parameter (`Codec`): pydantic's dump and the serialisers of `get_orjson_default` are not modelled here.
-/

namespace Verif.Element

open Json JsonDump

variable {ι γ α φ : Type} [DecidableEq ι] [DecidableEq γ]

/-- The JSON of the remaining values, and how a JSON value is seen again.  The `Bool` is the `sort_keys` option, which also applies inside the values.
Serves `encV` (`_json_dump.py:60-95`). -/
structure Codec (ι α : Type) where
  enc : Bool → DV ι α → J
  dec : J → DV ι α
  encMeta : Bool → MV α → J
  decMeta : J → MV α

/-- The members of an object in the order written: with `OPT_SORT_KEYS` by key, `_json_dump.py:204-223`. -/
def arrange (sort : Bool) (l : List (Str × J)) : List (Str × J) := if sort then l.mergeSort (fun a b => leStr a.1 b.1) else l

/-- A metadata value: texts are JSON strings. Serves `encV` (`_json_dump.py:60-95`). -/
def encM (C : Codec ι α) (sort : Bool) : MV α → J
  | .str s => .str s
  | v => C.encMeta sort v

/-- A value as orjson writes it: ids and times are texts, `_json_dump.py:60-95`. -/
def encV (W : World ι γ α φ) (C : Codec ι α) (sort : Bool) : DV ι α → J
  | .uuid u => .str (W.showId u)
  | .dt t => .str (W.iso t)
  | .str s => .str s
  | .dict d => .obj (arrange sort (d.map (fun kv => (kv.1.toList, encM C sort kv.2))))
  | v => C.enc sort v

/-- `to_json(pretty=pretty, sort_keys=sort)`, `element.py:224-251`; `decode` chooses between text and its UTF-8 bytes, which are not distinguished. -/
def toJson (W : World ι γ α φ) (C : Codec ι α) (x : Elem ι γ α φ) (pretty sort : Bool) : Str :=
  write pretty 0 (.obj (arrange sort ((rawDict W x).map (fun kv => (kv.1.toList, encV W C sort kv.2)))))

/-- A metadata value as `orjson.loads` gives it. Serves the model of `element.py:217-222`. -/
def decM (C : Codec ι α) : J → MV α
  | .str s => .str s
  | v => C.decMeta v

/-- An object as a dict: of two members with the same key the later wins. Serves `fromJson` (`element.py:217-222`). -/
def dictOf {ν : Type} (f : J → ν) (l : List (Str × J)) : Dict String ν := l.foldl (fun d kv => d.set (String.ofList kv.1) (f kv.2)) []

/-- A value as `orjson.loads` gives it. Serves `fromJson` (`element.py:217-222`). -/
def decV (C : Codec ι α) : J → DV ι α
  | .str s => .str s
  | .obj l => .dict (dictOf (decM C) l)
  | v => C.dec v

/-- `from_json(text, meta_key=...)`, `element.py:217-222`: text that is not JSON raises `orjson.JSONDecodeError`, a `ValueError`; on anything but an object the
first use of a dict method in `from_dict` raises `AttributeError` (`TypeError` for some lists, not distinguished). -/
def fromJson (W : World ι γ α φ) (C : Codec ι α) (R : Registry γ) (fresh : Fresh ι) (c : γ) (metaKey : Option String) (text : Str) : Except Exc (Elem ι γ α φ) :=
  match loads text with
  | none => .error .valueError
  | some (.obj l) => fromDict W R fresh c metaKey (dictOf (decV C) l)
  | some _ => .error .attributeError

end Verif.Element
