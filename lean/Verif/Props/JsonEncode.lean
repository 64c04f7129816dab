import Verif.Model.JsonEncode

set_option linter.unusedSectionVars false
set_option linter.unusedSimpArgs false
set_option linter.unusedVariables false

/-!
# C272: `enum_as_name`
-/

namespace Verif.JsonEncode

variable {ο : Type}

mutual
/-- Every member of an enumeration replaced by its name. -/
def named : V ο → V ο
  | .atom t => .atom t
  | .str s => .str s
  | .list xs => .list (namedList xs)
  | .dict kvs => .dict (namedDict kvs)
  | .enum name _ => .str name
  | .other o => .other o
def namedList : List (V ο) → List (V ο)
  | [] => []
  | x :: xs => named x :: namedList xs
def namedDict : List (String × V ο) → List (String × V ο)
  | [] => []
  | (k, x) :: xs => (k, named x) :: namedDict xs
end

mutual
/-- What is written for the value of every member of an enumeration is its name. -/
def Names (w : V ο → Option J) : V ο → Prop
  | .atom _ => True
  | .str _ => True
  | .list xs => NamesList w xs
  | .dict kvs => NamesDict w kvs
  | .enum name v => w v = some (.str name)
  | .other _ => True
def NamesList (w : V ο → Option J) : List (V ο) → Prop
  | [] => True
  | x :: xs => Names w x ∧ NamesList w xs
def NamesDict (w : V ο → Option J) : List (String × V ο) → Prop
  | [] => True
  | (_, x) :: xs => Names w x ∧ NamesDict w xs
end

theorem bind_ext {α β : Type} {o : Option α} {f g : α → Option β} (h : ∀ a, f a = g a) : o.bind f = o.bind g := by
  cases o <;> simp [h]

mutual
theorem encode_flag (f : V ο → Option (V ο)) : (n : Nat) → (v : V ο) → encode (defaultFn true f) n v = encode (defaultFn false f) n v
  | n, .atom t => by rw [encode, encode]
  | n, .str s => by rw [encode, encode]
  | n, .list xs => by rw [encode, encode, encodeList_flag f n xs]
  | n, .dict kvs => by rw [encode, encode, encodeDict_flag f n kvs]
  | n, .enum _ v => by rw [encode, encode, encode_flag f n v]
  | 0, .other o => by rw [encode, encode]
  | n + 1, .other o => by
    rw [encode, encode]
    exact bind_ext (fun a => encode_flag f n a)
termination_by n v => (n, sizeOf v)
theorem encodeList_flag (f : V ο → Option (V ο)) : (n : Nat) → (v : List (V ο)) → encodeList (defaultFn true f) n v = encodeList (defaultFn false f) n v
  | n, [] => by rw [encodeList, encodeList]
  | n, x :: xs => by rw [encodeList, encodeList, encode_flag f n x, encodeList_flag f n xs]
termination_by n v => (n, sizeOf v)
theorem encodeDict_flag (f : V ο → Option (V ο)) : (n : Nat) → (v : List (String × V ο)) → encodeDict (defaultFn true f) n v = encodeDict (defaultFn false f) n v
  | n, [] => by rw [encodeDict, encodeDict]
  | n, (k, x) :: xs => by rw [encodeDict, encodeDict, encode_flag f n x, encodeDict_flag f n xs]
termination_by n v => (n, sizeOf v)
end

/-- C272: with `enum_as_name=True` members of enumerations are written by their names.  This fails for every value: the flag never changes what is written, and a member is written as its value. -/
theorem C272_violation (f : V ο → Option (V ο)) :
    (∀ v, dumps true f v = dumps false f v) ∧ ∀ name value, dumps true f (.enum name value) = dumps true f value := by
  refine ⟨fun v => encode_flag f 254 v, fun name value => ?_⟩
  simp only [dumps]
  rw [encode]

/-- The case of the claim: a member RED with value 1. -/
example : dumps true (fun _ => none) (.enum "RED" (.atom "1") : V Nat) ≠ dumps true (fun _ => none) (named (.enum "RED" (.atom "1") : V Nat)) := by
  simp [dumps, named, encode]

mutual
theorem encode_named (d : V ο → Option (V ο)) (n : Nat) : (v : V ο) → (j : J) → encode d n v = some j → (encode d n (named v) = some j ↔ Names (encode d n) v)
  | .atom t, j, h => by rw [named, h]; simp [Names]
  | .str s, j, h => by rw [named, h]; simp [Names]
  | .other o, j, h => by rw [named, h]; simp [Names]
  | .enum name v, j, h => by
    rw [encode] at h
    rw [named, encode, Names, h]
    exact eq_comm
  | .list xs, j, h => by
    rw [encode] at h
    obtain ⟨js, hjs, rfl⟩ := Option.map_eq_some_iff.1 h
    rw [named, encode, Names, Option.map_eq_some_iff]
    simp only [J.list.injEq, exists_eq_right]
    exact encodeList_named d n xs js hjs
  | .dict kvs, j, h => by
    rw [encode] at h
    obtain ⟨js, hjs, rfl⟩ := Option.map_eq_some_iff.1 h
    rw [named, encode, Names, Option.map_eq_some_iff]
    simp only [J.dict.injEq, exists_eq_right]
    exact encodeDict_named d n kvs js hjs
theorem encodeList_named (d : V ο → Option (V ο)) (n : Nat) : (v : List (V ο)) → (js : List J) → encodeList d n v = some js →
    (encodeList d n (namedList v) = some js ↔ NamesList (encode d n) v)
  | [], js, h => by rw [namedList, h]; simp [NamesList]
  | x :: xs, js, h => by
    rw [encodeList, Option.bind_eq_some_iff] at h
    obtain ⟨j, hj, h⟩ := h
    obtain ⟨js', hjs, rfl⟩ := Option.map_eq_some_iff.1 h
    have h1 := encode_named d n x j hj
    have h2 := encodeList_named d n xs js' hjs
    rw [namedList, encodeList, NamesList, ← h1, ← h2, Option.bind_eq_some_iff]
    constructor
    · rintro ⟨j', hj', h⟩
      obtain ⟨js'', hjs'', e⟩ := Option.map_eq_some_iff.1 h
      injection e with e1 e2
      rw [← e1, ← e2]; exact ⟨hj', hjs''⟩
    · rintro ⟨a, b⟩
      exact ⟨j, a, by rw [b]; rfl⟩
theorem encodeDict_named (d : V ο → Option (V ο)) (n : Nat) : (v : List (String × V ο)) → (js : List (String × J)) → encodeDict d n v = some js →
    (encodeDict d n (namedDict v) = some js ↔ NamesDict (encode d n) v)
  | [], js, h => by rw [namedDict, h]; simp [NamesDict]
  | (k, x) :: xs, js, h => by
    rw [encodeDict, Option.bind_eq_some_iff] at h
    obtain ⟨j, hj, h⟩ := h
    obtain ⟨js', hjs, rfl⟩ := Option.map_eq_some_iff.1 h
    have h1 := encode_named d n x j hj
    have h2 := encodeDict_named d n xs js' hjs
    rw [namedDict, encodeDict, NamesDict, ← h1, ← h2, Option.bind_eq_some_iff]
    constructor
    · rintro ⟨j', hj', h⟩
      obtain ⟨js'', hjs'', e⟩ := Option.map_eq_some_iff.1 h
      injection e with e1 e2
      injection e1 with _ e1
      rw [← e1, ← e2]; exact ⟨hj', hjs''⟩
    · rintro ⟨a, b⟩
      exact ⟨j, a, by rw [b]; rfl⟩
end

/-- C272, the exact condition: what is written has the names of all members of enumerations iff the value of each member is written as its name. -/
theorem C272_exact_partial (f : V ο → Option (V ο)) (v : V ο) (j : J) (h : dumps true f v = some j) :
    dumps true f (named v) = some j ↔ Names (dumps true f) v := encode_named _ _ v j h

/-- A member whose value is its name, in a list. -/
example : Names (dumps true (fun _ => none)) (.list [.enum "RED" (.str "RED"), .atom "1"] : V Nat) ∧
    dumps true (fun _ => none) (.list [.enum "RED" (.str "RED"), .atom "1"] : V Nat) = some (.list [.str "RED", .atom "1"]) := by
  simp [Names, NamesList, dumps, encode, encodeList]

/-- C272 (partial): the function that `get_orjson_default` returns does give the name, when it is called with a member: with the flag the name, whatever the other serializers do; without it what they give. -/
theorem C272_default_partial (f : V ο → Option (V ο)) (name : String) (v : V ο) :
    defaultFn true f (.enum name v) = some (.str name) ∧ (∀ w, defaultFn false f w = f w) ∧ ∀ w, (∀ n u, w ≠ .enum n u) → defaultFn true f w = f w := by
  refine ⟨rfl, fun w => ?_, fun w hw => ?_⟩
  · cases w <;> rfl
  · cases w with
    | enum n u => exact absurd rfl (hw n u)
    | _ => rfl

end Verif.JsonEncode
