import Verif.Model.EventSerial

set_option linter.unusedSectionVars false
set_option linter.unusedSimpArgs false
set_option linter.unusedVariables false

/-!
# C202 to C204: writing and reading the execution of an event
-/

namespace Verif.EventSerial

open Verif.Event (Status)

/-! ### Specification -/

/-- A text that can be written. -/
def Writable (t : Text) : Prop := ∀ c ∈ t, ¬ (0xD800 ≤ c ∧ c ≤ 0xDFFF)

/-- Plain JSON data. -/
inductive Plain : V → Prop where
  | null : Plain .null
  | bool (b : Bool) : Plain (.bool b)
  | int (n : Int) : -(2 ^ 63) ≤ n → n < 2 ^ 64 → Plain (.int n)
  | float (q : Rat) : Plain (.float q)
  | str (t : Text) : Writable t → Plain (.str t)
  | list (xs : List V) : (∀ x ∈ xs, Plain x) → Plain (.list xs)
  | dict (kvs : List (Key × V)) : (∀ k x, (k, x) ∈ kvs → ∃ t, k = .text t ∧ Writable t) → (∀ k x, (k, x) ∈ kvs → Plain x) → Plain (.dict kvs)

/-- Specification: a value with something in it that JSON has no place for: bytes, an object of an unknown kind, an integer beyond 64 bits, a text with surrogates, a key that is not a
text or has surrogates. -/
inductive Refused : V → Prop where
  | bytes (bs : List Nat) : Refused (.bytes bs)
  | opaque (n : Nat) : Refused (.opaque n)
  | int (n : Int) : ¬ (-(2 ^ 63) ≤ n ∧ n < 2 ^ 64) → Refused (.int n)
  | str (t : Text) : ¬ Writable t → Refused (.str t)
  | viaStr (t : Text) : ¬ Writable t → Refused (.viaStr t)
  | enum (v : V) : Refused v → Refused (.enum v)
  | model (v : V) : Refused v → Refused (.model v)
  | set (xs : List V) (x : V) : x ∈ xs → Refused x → Refused (.set xs)
  | list (xs : List V) (x : V) : x ∈ xs → Refused x → Refused (.list xs)
  | key (kvs : List (Key × V)) (k : Key) (x : V) : (k, x) ∈ kvs → (¬ ∃ t, k = .text t ∧ Writable t) → Refused (.dict kvs)
  | entry (kvs : List (Key × V)) (k : Key) (x : V) : (k, x) ∈ kvs → Refused x → Refused (.dict kvs)

/-- The values that `get_json_serializable` passes although they cannot be written. -/
inductive Unwritable : V → Prop where
  | bytes (bs : List Nat) : Unwritable (.bytes bs)
  | int (n : Int) : ¬ (-(2 ^ 63) ≤ n ∧ n < 2 ^ 64) → Unwritable (.int n)
  | str (t : Text) : ¬ Writable t → Unwritable (.str t)
  | enum (v : V) : Refused v → Unwritable (.enum v)

/-- The class and the message of an exception. -/
inductive Describes : Err → Text → Text → Prop where
  | plain (cls message : Text) : Describes (.plain cls message) cls message
  | lion (cls message : Text) (r : Bool) (d : Option (List (Key × V))) : Describes (.lion cls message r d) cls message
  | group (cls message : Text) (ms : List Err) : Describes (.group cls message ms) cls message

/-- An exception all of whose parts that are written (down to the given depth of groups) can be. -/
def ErrSafe : Nat → Err → Prop
  | _, .plain cls message => Writable cls ∧ Writable message
  | _, .lion cls message _ none => Writable cls ∧ Writable message
  | _, .lion cls message _ (some d) => Writable cls ∧ Writable message ∧ ∀ k x, (k, x) ∈ d → (∃ t, k = .text t ∧ Writable t) ∧ ¬ Refused x
  | 0, .group _ _ ms => ms.length < 2 ^ 64
  | k + 1, .group cls message ms => Writable cls ∧ Writable message ∧ AllSafe k ms
where
  AllSafe : Nat → List Err → Prop
    | _, [] => True
    | k, m :: ms => ErrSafe k m ∧ AllSafe k ms

/-! ### The encoder -/

theorem textOk_iff (t : Text) : textOk t = true ↔ Writable t := by
  simp only [textOk, List.all_eq_true, Writable, Bool.not_eq_true', Bool.and_eq_false_iff, decide_eq_false_iff_not]
  constructor
  · intro h c hc hh
    rcases h c hc with h | h
    · exact h hh.1
    · exact h hh.2
  · intro h c hc
    have := h c hc
    omega

theorem intOk_iff (n : Int) : intOk n = true ↔ -(2 ^ 63) ≤ n ∧ n < 2 ^ 64 := by simp [intOk]

theorem keyOk_iff (k : Key) : keyOk k = true ↔ ∃ t, k = .text t ∧ Writable t := by
  cases k with
  | text t => simp [keyOk, textOk_iff]
  | other n => simp [keyOk]

theorem allEnc_iff (xs : List V) : encodable.allEnc xs = true ↔ ∀ x ∈ xs, encodable x = true := by
  induction xs with
  | nil => simp [encodable.allEnc]
  | cons x xs ih => simp [encodable.allEnc, ih]

theorem allEncKV_iff (kvs : List (Key × V)) : encodable.allEncKV kvs = true ↔ ∀ k x, (k, x) ∈ kvs → (∃ t, k = .text t ∧ Writable t) ∧ encodable x = true := by
  induction kvs with
  | nil => simp [encodable.allEncKV]
  | cons kv kvs ih =>
    rcases kv with ⟨k, x⟩
    simp only [encodable.allEncKV, Bool.and_eq_true, keyOk_iff, ih, List.mem_cons, Prod.mk.injEq]
    constructor
    · rintro ⟨⟨h1, h2⟩, h3⟩ k' x' (⟨rfl, rfl⟩ | h)
      · exact ⟨h1, h2⟩
      · exact h3 k' x' h
    · intro h
      exact ⟨h k x (.inl ⟨rfl, rfl⟩), fun k' x' h' => h k' x' (.inr h')⟩

theorem refused_members (xs : List V) (h : ∀ x ∈ xs, (encodable x = true ↔ ¬ Refused x)) : encodable.allEnc xs = true ↔ ¬ ∃ x ∈ xs, Refused x := by
  rw [allEnc_iff]
  constructor
  · rintro g ⟨x, hx, r⟩
    exact (h x hx).mp (g x hx) r
  · intro g x hx
    exact (h x hx).mpr (fun r => g ⟨x, hx, r⟩)

mutual
theorem encodable_iff : (v : V) → (encodable v = true ↔ ¬ Refused v)
  | .null => ⟨fun _ h => (nomatch h), fun _ => rfl⟩
  | .bool b => ⟨fun _ h => (nomatch h), fun _ => rfl⟩
  | .int n => by
    rw [encodable, intOk_iff]
    exact ⟨fun h r => by cases r with | int _ g => exact g h, fun h => Classical.byContradiction fun g => h (.int n g)⟩
  | .float q => ⟨fun _ h => (nomatch h), fun _ => rfl⟩
  | .nonFinite => ⟨fun _ h => (nomatch h), fun _ => rfl⟩
  | .str t => by
    rw [encodable, textOk_iff]
    exact ⟨fun h r => by cases r with | str _ g => exact g h, fun h => Classical.byContradiction fun g => h (.str t g)⟩
  | .bytes bs => ⟨fun h => Bool.noConfusion h, fun h => absurd (Refused.bytes bs) h⟩
  | .enum v => by
    rw [encodable, encodable_iff v]
    exact ⟨fun h r => by cases r with | enum _ g => exact h g, fun h r => h (.enum v r)⟩
  | .native t => ⟨fun _ h => (nomatch h), fun _ => by simp [encodable]⟩
  | .viaStr t => by
    rw [encodable, textOk_iff]
    exact ⟨fun h r => by cases r with | viaStr _ g => exact g h, fun h => Classical.byContradiction fun g => h (.viaStr t g)⟩
  | .set xs => by
    rw [encodable, refused_members xs (encodable_each xs)]
    exact ⟨fun h r => by cases r with | set _ x m g => exact h ⟨x, m, g⟩, fun h ⟨x, m, g⟩ => h (.set xs x m g)⟩
  | .list xs => by
    rw [encodable, refused_members xs (encodable_each xs)]
    exact ⟨fun h r => by cases r with | list _ x m g => exact h ⟨x, m, g⟩, fun h ⟨x, m, g⟩ => h (.list xs x m g)⟩
  | .dict kvs => by
    rw [encodable, allEncKV_iff]
    have he := encodable_entries kvs
    constructor
    · intro h r
      cases r with
      | key _ k x m g => exact g (h k x m).1
      | entry _ k x m g => exact (he k x m).mp (h k x m).2 g
    · intro h k x m
      exact ⟨Classical.byContradiction fun g => h (.key kvs k x m g), (he k x m).mpr fun g => h (.entry kvs k x m g)⟩
  | .model v => by
    rw [encodable, encodable_iff v]
    exact ⟨fun h r => by cases r with | model _ g => exact h g, fun h r => h (.model v r)⟩
  | .opaque n => ⟨fun h => Bool.noConfusion h, fun h => absurd (Refused.opaque n) h⟩
theorem encodable_each : (xs : List V) → ∀ x ∈ xs, (encodable x = true ↔ ¬ Refused x)
  | [], _, h => by cases h
  | x :: xs, y, h => by
    rcases List.mem_cons.mp h with e | h
    · rw [e]; exact encodable_iff x
    · exact encodable_each xs y h
theorem encodable_entries : (kvs : List (Key × V)) → ∀ k x, (k, x) ∈ kvs → (encodable x = true ↔ ¬ Refused x)
  | [], _, _, h => by cases h
  | (k, x) :: kvs, k', y, h => by
    rcases List.mem_cons.mp h with e | h
    · cases e; exact encodable_iff x
    · exact encodable_entries kvs k' y h
end

mutual
theorem enc_dump : (v : V) → encodable (pyDump v) = encodable v
  | .null => rfl
  | .bool _ => rfl
  | .int _ => rfl
  | .float _ => rfl
  | .nonFinite => rfl
  | .str _ => rfl
  | .bytes _ => rfl
  | .enum _ => rfl
  | .native _ => rfl
  | .viaStr _ => rfl
  | .opaque _ => rfl
  | .set xs => by simp only [pyDump, encodable]; exact enc_dumpList xs
  | .list xs => by simp only [pyDump, encodable]; exact enc_dumpList xs
  | .dict kvs => by simp only [pyDump, encodable]; exact enc_dumpKV kvs
  | .model d => by simp only [pyDump, encodable]; exact enc_dump d
theorem enc_dumpList : (xs : List V) → encodable.allEnc (pyDump.dumpList xs) = encodable.allEnc xs
  | [] => rfl
  | x :: xs => by simp only [pyDump.dumpList, encodable.allEnc, enc_dump x, enc_dumpList xs]
theorem enc_dumpKV : (kvs : List (Key × V)) → encodable.allEncKV (pyDump.dumpKV kvs) = encodable.allEncKV kvs
  | [] => rfl
  | (k, x) :: kvs => by simp only [pyDump.dumpKV, encodable.allEncKV, enc_dump x, enc_dumpKV kvs]
end

theorem dumpList_map (xs : List V) : pyDump.dumpList xs = xs.map pyDump := by
  induction xs with
  | nil => rfl
  | cons x xs ih => simp [pyDump.dumpList, ih]

theorem dumpKV_map (kvs : List (Key × V)) : pyDump.dumpKV kvs = kvs.map (fun kv => (kv.1, pyDump kv.2)) := by
  induction kvs with
  | nil => rfl
  | cons kv kvs ih => simp [pyDump.dumpKV, ih]

theorem viaList_map (xs : List V) : viaJson.viaList xs = xs.map viaJson := by
  induction xs with
  | nil => rfl
  | cons x xs ih => simp [viaJson.viaList, ih]

theorem viaKV_map (kvs : List (Key × V)) : viaJson.viaKV kvs = kvs.map (fun kv => (kv.1, viaJson kv.2)) := by
  induction kvs with
  | nil => rfl
  | cons kv kvs ih => simp [viaJson.viaKV, ih]

theorem map_id_of {α : Type} (f : α → α) (xs : List α) (h : ∀ x ∈ xs, f x = x) : xs.map f = xs := by
  induction xs with
  | nil => rfl
  | cons x xs ih => rw [List.map_cons, h x List.mem_cons_self, ih (fun y hy => h y (List.mem_cons_of_mem _ hy))]

/-- Plain data are written and read as they are. -/
theorem Plain.fixed {v : V} (h : Plain v) : encodable v = true ∧ pyDump v = v ∧ viaJson v = v := by
  induction h with
  | null => exact ⟨rfl, rfl, rfl⟩
  | bool b => exact ⟨rfl, rfl, rfl⟩
  | int n h1 h2 => exact ⟨(intOk_iff n).2 ⟨h1, h2⟩, rfl, rfl⟩
  | float q => exact ⟨rfl, rfl, rfl⟩
  | str t ht => exact ⟨(textOk_iff t).2 ht, rfl, rfl⟩
  | list xs _ ih =>
    refine ⟨(allEnc_iff xs).2 (fun x hx => (ih x hx).1), ?_, ?_⟩
    · rw [pyDump, dumpList_map, map_id_of _ _ (fun x hx => (ih x hx).2.1)]
    · rw [viaJson, viaList_map, map_id_of _ _ (fun x hx => (ih x hx).2.2)]
  | dict kvs h _ ih =>
    refine ⟨(allEncKV_iff kvs).2 (fun k x hx => ⟨h k x hx, (ih k x hx).1⟩), ?_, ?_⟩
    · rw [pyDump, dumpKV_map, map_id_of]
      rintro ⟨k, x⟩ hx
      rw [(ih k x hx).2.1]
    · rw [viaJson, viaKV_map, map_id_of]
      rintro ⟨k, x⟩ hx
      rw [(ih k x hx).2.2]

theorem simple_unwritable (v : V) (h : simple v = true) : encodable v = true ↔ ¬ Unwritable v := by
  cases v with
  | null => exact ⟨fun _ h => (by cases h), fun _ => rfl⟩
  | bool b => exact ⟨fun _ h => (by cases h), fun _ => rfl⟩
  | float b => exact ⟨fun _ h => (by cases h), fun _ => rfl⟩
  | nonFinite => exact ⟨fun _ h => (by cases h), fun _ => rfl⟩
  | bytes bs => exact ⟨fun h => (by cases h), fun h => absurd (.bytes bs) h⟩
  | int n =>
    rw [encodable, intOk_iff]
    exact ⟨fun h hu => (by cases hu with | int _ h' => exact h' h), fun h => Classical.byContradiction (fun hn => h (.int n hn))⟩
  | str t =>
    rw [encodable, textOk_iff]
    exact ⟨fun h hu => (by cases hu with | str _ h' => exact h' h), fun h => Classical.byContradiction (fun hn => h (.str t hn))⟩
  | enum w =>
    constructor
    · intro he hu
      cases hu with
      | enum _ h' => rw [encodable] at he; exact (encodable_iff w).mp he h'
    · intro hu
      rw [encodable, encodable_iff]
      exact fun r => hu (.enum w r)
  | _ => cases h

theorem unwritable_simple {v : V} (h : Unwritable v) : simple v = true := by cases h <;> rfl

/-! ### The response entry -/

theorem response_encodable (force : V → Option V) (r : Response) :
    encodable (responseEntry force r) = true ↔ ∀ v, r = .value v → ¬ Unwritable v := by
  cases r with
  | sentinel => simp [responseEntry, encodable]
  | value v =>
    have hin : (∀ w, Response.value v = Response.value w → ¬ Unwritable w) ↔ ¬ Unwritable v := by
      constructor
      · intro h; exact h v rfl
      · intro h w hw; cases hw; exact h
    rw [hin]
    simp only [responseEntry, jsonSerializable]
    by_cases hs : simple v = true
    · rw [if_pos hs]; exact simple_unwritable v hs
    · rw [if_neg hs]
      have hnu : ¬ Unwritable v := fun h => hs (unwritable_simple h)
      refine ⟨fun _ => hnu, fun _ => ?_⟩
      by_cases he : encodable v = true
      · rw [if_pos he]; exact he
      · rw [if_neg he]
        simp only [forced]
        cases hf : force v with
        | none => simp only [Option.getD_none]; decide
        | some d =>
          simp only
          by_cases hd : encodable d = true
          · rw [if_pos hd]; exact hd
          · rw [if_neg hd]; decide

/-! ### Errors -/

theorem errEntry_enc (cls message : Text) (more : List (Key × V)) :
    encodable (errEntry cls message more) = true ↔ Writable cls ∧ Writable message ∧ encodable.allEncKV more = true := by
  have e1 : keyOk (.text (lit "error")) = true := by decide
  have e2 : keyOk (.text (lit "message")) = true := by decide
  simp only [errEntry, encodable, encodable.allEncKV, e1, e2, Bool.true_and, Bool.and_eq_true, textOk_iff]

theorem details_enc (d : Option (List (Key × V))) :
    encodable.allEncKV (detailsEntry d) = true ↔ ∀ kvs, d = some kvs → ∀ k x, (k, x) ∈ kvs → (∃ t, k = .text t ∧ Writable t) ∧ encodable x = true := by
  have e1 : keyOk (.text (lit "details")) = true := by decide
  match d with
  | none => simp [detailsEntry, encodable.allEncKV]
  | some [] =>
    simp only [detailsEntry, encodable.allEncKV, Option.some.injEq]
    refine ⟨fun _ kvs h k x hx => ?_, fun _ => trivial⟩
    subst h; cases hx
  | some (kv :: kvs) =>
    have : encodable.allEncKV (detailsEntry (some (kv :: kvs))) = encodable.allEncKV (kv :: kvs) := by
      simp only [detailsEntry, encodable.allEncKV, e1, encodable, Bool.true_and, Bool.and_true]
    rw [this, allEncKV_iff]
    constructor
    · intro h kvs' he; cases he; exact h
    · intro h; exact h _ rfl

mutual
theorem errDict_enc : (k : Nat) → (e : Err) → (encodable (errDict k e) = true ↔ ErrSafe k e)
  | 0, .plain cls message => by simp only [errDict, ErrSafe, errEntry_enc, encodable.allEncKV, and_true]
  | k + 1, .plain cls message => by simp only [errDict, ErrSafe, errEntry_enc, encodable.allEncKV, and_true]
  | 0, .lion cls message r d => by
    have e1 : keyOk (.text (lit "retryable")) = true := by decide
    simp only [errDict, lionEntry, errEntry_enc, encodable.allEncKV, e1, encodable, Bool.true_and, details_enc]
    simp only [encodable_iff]
    cases d <;> simp [ErrSafe]
  | k + 1, .lion cls message r d => by
    have e1 : keyOk (.text (lit "retryable")) = true := by decide
    simp only [errDict, lionEntry, errEntry_enc, encodable.allEncKV, e1, encodable, Bool.true_and, details_enc]
    simp only [encodable_iff]
    cases d <;> simp [ErrSafe]
  | 0, .group cls message ms => by
    have e1 : keyOk (.text (lit "nested_count")) = true := by decide
    have e2 : Writable (lit "ExceptionGroup") := (textOk_iff _).1 (by decide)
    have e3 : Writable (lit "Max nesting depth (100) exceeded") := (textOk_iff _).1 (by decide)
    simp only [errDict, deepEntry, ErrSafe, errEntry_enc, encodable.allEncKV, e1, e2, e3, encodable, Bool.true_and, Bool.and_true, true_and, intOk_iff]
    omega
  | k + 1, .group cls message ms => by
    have e1 : keyOk (.text (lit "exceptions")) = true := by decide
    simp only [errDict, ErrSafe, errEntry_enc, encodable.allEncKV, e1, encodable, Bool.true_and, Bool.and_true, members_enc k ms]
theorem members_enc : (k : Nat) → (ms : List Err) → (encodable.allEnc (errDict.members k ms) = true ↔ ErrSafe.AllSafe k ms)
  | _, [] => by simp [errDict.members, encodable.allEnc, ErrSafe.AllSafe]
  | k, m :: ms => by simp only [errDict.members, encodable.allEnc, ErrSafe.AllSafe, Bool.and_eq_true, errDict_enc k m, members_enc k ms]
end

theorem error_encodable (e : Error) : encodable (errorEntry e) = true ↔ ∀ x, e = .exc x → ErrSafe 101 x := by
  cases e with
  | unset => simp [errorEntry, encodable]
  | none_ => simp [errorEntry, encodable]
  | exc x =>
    simp only [errorEntry, errDict_enc, Error.exc.injEq]
    exact ⟨fun h y hy => hy ▸ h, fun h => h x rfl⟩

/-! ### C202 -/

/-- C202: the entries written in python mode. The duration, the retryable flag and the error are None if unset (or None), an error is written with its class and message; the response is None if unset,
plain data are written as they are, and what can neither be encoded nor converted is replaced by a marker. -/
theorem C202_entries (force : V → Option V) (x : Execution) (hx : x.statusIsText = false) :
    ∃ d, eventToDict force x .python = .ok d ∧ d.status = x.status ∧
      (∀ t, x.duration = some t → d.duration = .float t) ∧ (x.duration = none → d.duration = .null) ∧
      (∀ b, x.retryable = some b → d.retryable = .bool b) ∧ (x.retryable = none → d.retryable = .null) ∧
      (x.error = .unset ∨ x.error = .none_ → d.error = .null) ∧
      (∀ e cls message, x.error = .exc e → Describes e cls message →
        ∃ more, d.error = .dict ((.text (lit "error"), .str cls) :: (.text (lit "message"), .str message) :: more)) ∧
      (x.response = .sentinel → d.response = .null) ∧
      (∀ v, x.response = .value v → Plain v → d.response = v) ∧
      (∀ v, x.response = .value v → ¬ Unwritable v → encodable d.response = true) ∧
      (∀ v, x.response = .value v → encodable v = false → force v = none → ¬ Unwritable v → d.response = .str (lit "<unserializable>")) := by
  refine ⟨dumpDict ⟨x.status, orNull .float x.duration, responseEntry force x.response, errorEntry x.error, orNull .bool x.retryable⟩, ?_, rfl, ?_, ?_, ?_, ?_,
    ?_, ?_, ?_, ?_, ?_, ?_⟩
  · simp [eventToDict, execToDict, hx]
  · intro t h; simp only [dumpDict, h, orNull]; rfl
  · intro h; simp only [dumpDict, h, orNull]; rfl
  · intro t h; simp only [dumpDict, h, orNull]; rfl
  · intro h; simp only [dumpDict, h, orNull]; rfl
  · rintro (h | h) <;> simp only [dumpDict, h, errorEntry] <;> rfl
  · intro e cls message h hd
    simp only [dumpDict, h, errorEntry]
    cases hd <;> simp only [errDict, lionEntry, errEntry, pyDump, pyDump.dumpKV] <;> exact ⟨_, rfl⟩
  · intro h; simp only [dumpDict, h, responseEntry]; rfl
  · intro v h hp
    have hf := hp.fixed
    have : responseEntry force (.value v) = v := by
      simp only [responseEntry, jsonSerializable, hf.1, if_true, ite_self, Option.getD_some]
    simp only [dumpDict, h, this, hf.2.1]
  · intro v h hu
    simp only [dumpDict, h, enc_dump]
    exact (response_encodable force (.value v)).2 (fun w hw => by cases hw; exact hu)
  · intro v h he hf hu
    have hs : ¬ simple v = true := by
      intro hs
      have := (simple_unwritable v hs).2 hu
      rw [he] at this; cases this
    have : responseEntry force (.value v) = .str (lit "<unserializable>") := by
      simp only [responseEntry, jsonSerializable, if_neg hs, he, forced, hf]
      rfl
    simp only [dumpDict, h, this]; rfl

/-- Non-vacuity: a response with a list is written as it is, an object is replaced. -/
example : Plain (.list [.int 1, .str (lit "a")]) :=
  .list _ (by
    intro x hx
    simp only [List.mem_cons, List.not_mem_nil, or_false] at hx
    rcases hx with rfl | rfl
    · exact .int 1 (by decide) (by decide)
    · exact .str _ ((textOk_iff _).1 (by decide)))

example : encodable (.list [.opaque 0]) = false ∧ ¬ Unwritable (.list [.opaque 0]) := ⟨rfl, fun h => by cases h⟩

/-! ### C203 -/

theorem json_ok (force : V → Option V) (x : Execution) (hx : x.statusIsText = false) :
    (∃ d, eventToDict force x .json = .ok d) ↔ encodable (responseEntry force x.response) = true ∧ encodable (errorEntry x.error) = true := by
  have h1 : encodable (orNull .float x.duration) = true := by cases x.duration <;> rfl
  have h2 : encodable (orNull .bool x.retryable) = true := by cases x.retryable <;> rfl
  simp only [eventToDict, execToDict, hx, Bool.false_eq_true, if_false, dictEncodable, dumpDict, enc_dump, h1, h2, Bool.true_and, Bool.and_true]
  by_cases h : (encodable (responseEntry force x.response) && encodable (errorEntry x.error)) = true
  · rw [if_pos h]
    simp only [Bool.and_eq_true] at h
    exact ⟨fun _ => h, fun _ => ⟨_, rfl⟩⟩
  · rw [if_neg h]
    simp only [Bool.and_eq_true] at h
    exact ⟨fun ⟨d, hd⟩ => (by cases hd), fun hh => absurd hh h⟩

/-- C203 (partial): an event can be written in mode json exactly if its response is not one of the bare values that are passed without a check (bytes, integers beyond
64 bits, texts with surrogates, enumeration members with such a value) and its error has writable texts and details. Responses of every other kind, however they are
nested, can be written. -/
theorem C203_json_partial (force : V → Option V) (x : Execution) (hx : x.statusIsText = false) :
    (∃ d, eventToDict force x .json = .ok d) ↔ (∀ v, x.response = .value v → ¬ Unwritable v) ∧ (∀ e, x.error = .exc e → ErrSafe 101 e) := by
  rw [json_ok force x hx, response_encodable, error_encodable]

/-- C203 (violation): an event that returned bytes cannot be written in mode json, while one that returned a list of bytes can. -/
theorem C203_bytes_violation (force : V → Option V) (bs : List Nat) (t : Rat) :
    eventToDict force ⟨.completed, false, some t, .value (.bytes bs), .none_, some false⟩ .json = .error .typeError ∧
    ∃ d, eventToDict force ⟨.completed, false, some t, .value (.list [.bytes bs]), .none_, some false⟩ .json = .ok d := by
  refine ⟨rfl, (C203_json_partial force _ rfl).2 ⟨?_, ?_⟩⟩
  · intro v hv hu
    injection hv with hv
    subst hv
    cases hu
  · intro e he
    cases he

/-- C203 (violation): so with an error of the package whose details hold an object. -/
theorem C203_details_violation (force : V → Option V) (cls message : Text) (r : Bool) (n : Nat) (t : Rat) :
    eventToDict force ⟨.failed, false, some t, .sentinel, .exc (.lion cls message r (some [(.text (lit "obj"), .opaque n)])), some r⟩ .json = .error .typeError := by
  have : ¬ ∃ d, eventToDict force ⟨.failed, false, some t, .sentinel, .exc (.lion cls message r (some [(.text (lit "obj"), .opaque n)])), some r⟩ .json = .ok d := by
    rw [C203_json_partial force _ rfl]
    rintro ⟨_, h⟩
    have := (h _ rfl).2.2 _ _ List.mem_cons_self
    exact this.2 (.opaque n)
  simp only [eventToDict, execToDict, Bool.false_eq_true, if_false] at this ⊢
  split
  · next h => exact absurd ⟨_, if_pos h⟩ this
  · rfl

/-! ### C204 -/

/-- C204 (partial): an event read from what `to_dict` wrote, in either mode, is restored exactly if it has a duration and a retryable flag and no error, which is the case once it is
completed; status, duration, retryable flag and a plain response are the same. -/
theorem C204_round_trip_partial (force : V → Option V) (x : Execution) (hx : x.statusIsText = false) (m : Mode) (d : ExecDict) (hd : eventToDict force x m = .ok d) :
    ((∃ y, readExecution d = .ok y) ↔ x.duration ≠ none ∧ x.retryable ≠ none ∧ ∀ e, x.error ≠ .exc e) ∧
    (∀ y, readExecution d = .ok y → y.status = x.status ∧ y.duration = x.duration ∧ y.retryable = x.retryable ∧ y.error = .none_ ∧
      (x.response = .sentinel → y.response = .value .null) ∧ ∀ v, x.response = .value v → Plain v → y.response = .value v) := by
  have hresp : ∀ v, x.response = .value v → Plain v → responseEntry force x.response = v ∧ pyDump v = v ∧ viaJson v = v := by
    intro v h hp
    have hf := hp.fixed
    refine ⟨?_, hf.2⟩
    rw [h]
    simp only [responseEntry, jsonSerializable, hf.1, if_true, ite_self, Option.getD_some]
  have key : ∃ r : V → V, d = ⟨x.status, orNull .float x.duration, r (pyDump (responseEntry force x.response)), r (pyDump (errorEntry x.error)), orNull .bool x.retryable⟩ ∧
      r .null = .null ∧ (∀ kvs, ∃ kvs', r (.dict kvs) = .dict kvs') ∧ (∀ v, viaJson v = v → r v = v) := by
    have e1 : pyDump (orNull .float x.duration) = orNull .float x.duration := by cases x.duration <;> rfl
    have e2 : pyDump (orNull .bool x.retryable) = orNull .bool x.retryable := by cases x.retryable <;> rfl
    have e3 : viaJson (orNull .float x.duration) = orNull .float x.duration := by cases x.duration <;> rfl
    have e4 : viaJson (orNull .bool x.retryable) = orNull .bool x.retryable := by cases x.retryable <;> rfl
    cases m with
    | python =>
      simp only [eventToDict, execToDict, hx, Bool.false_eq_true, if_false] at hd
      cases hd
      exact ⟨id, by simp only [dumpDict, e1, e2, id], rfl, fun kvs => ⟨kvs, rfl⟩, fun v _ => rfl⟩
    | json =>
      simp only [eventToDict, execToDict, hx, Bool.false_eq_true, if_false] at hd
      split at hd
      · cases hd
        exact ⟨viaJson, by simp only [dictViaJson, dumpDict, e1, e2, e3, e4], rfl, fun kvs => ⟨_, by rw [viaJson]⟩, fun v h => h⟩
      · cases hd
  rcases key with ⟨r, hd', hnull, hdict, hfix⟩
  have herr : (readError d.error = some .none_ ∧ ∀ e, x.error ≠ .exc e) ∨ (readError d.error = none ∧ ∃ e, x.error = .exc e) := by
    rw [hd']
    cases he : x.error with
    | unset => exact .inl ⟨by simp only [errorEntry, pyDump, hnull]; rfl, fun e h => by cases h⟩
    | none_ => exact .inl ⟨by simp only [errorEntry, pyDump, hnull]; rfl, fun e h => by cases h⟩
    | exc e =>
      refine .inr ⟨?_, e, rfl⟩
      have : ∃ kvs, pyDump (errorEntry (.exc e)) = .dict kvs := by
        simp only [errorEntry]
        cases e <;> simp only [errDict, lionEntry, errEntry, pyDump] <;> exact ⟨_, rfl⟩
      rcases this with ⟨kvs, hk⟩
      rcases hdict kvs with ⟨kvs', hk'⟩
      simp only [hk, hk']; rfl
  have hdur : readDuration d.duration = x.duration := by rw [hd']; cases x.duration <;> rfl
  have hret : readRetryable d.retryable = x.retryable := by rw [hd']; cases x.retryable <;> rfl
  have hst : d.status = x.status := by rw [hd']
  have hre : d.response = r (pyDump (responseEntry force x.response)) := by rw [hd']
  simp only [readExecution, hdur, hret]
  rcases herr with ⟨he, hne⟩ | ⟨he, e, hee⟩
  · rw [he]
    cases hdu : x.duration with
    | none => exact ⟨⟨fun ⟨y, hy⟩ => (by cases hy), fun h => absurd rfl h.1⟩, fun y hy => by cases hy⟩
    | some t =>
      cases hrt : x.retryable with
      | none => exact ⟨⟨fun ⟨y, hy⟩ => (by cases hy), fun h => absurd rfl h.2.1⟩, fun y hy => by cases hy⟩
      | some b =>
        refine ⟨⟨fun _ => ⟨by simp, by simp, hne⟩, fun _ => ⟨_, rfl⟩⟩, ?_⟩
        intro y hy
        cases hy
        refine ⟨hst, rfl, rfl, rfl, ?_, ?_⟩
        · intro h
          simp only [hre, h, responseEntry, pyDump, hnull]
        · intro v h hp
          rcases hresp v h hp with ⟨h1, h2, h3⟩
          simp only [hre, h1, h2, hfix v h3]
  · rw [he]
    constructor
    · constructor
      · rintro ⟨y, hy⟩
        split at hy
        · next h _ => cases h
        · cases hy
      · rintro ⟨_, _, h⟩; exact absurd hee (h e)
    · intro y hy
      split at hy
      · next h _ => cases h
      · cases hy

/-- C204: a completed event with a plain response survives in both modes. -/
theorem C204_completed (force : V → Option V) (t : Rat) (v : V) (hv : Plain v) (b : Bool) (m : Mode) :
    ∃ d y, eventToDict force ⟨.completed, false, some t, .value v, .none_, some b⟩ m = .ok d ∧ readExecution d = .ok y ∧
      y.status = .completed ∧ y.duration = some t ∧ y.response = .value v ∧ y.error = .none_ ∧ y.retryable = some b := by
  have hok : ∃ d, eventToDict force ⟨.completed, false, some t, .value v, .none_, some b⟩ m = .ok d := by
    cases m with
    | python => exact ⟨_, rfl⟩
    | json =>
      refine (C203_json_partial force _ rfl).2 ⟨?_, fun e h => by cases h⟩
      intro w hw hu
      cases hw
      have h1 := (simple_unwritable _ (unwritable_simple hu)).1 hv.fixed.1
      exact h1 hu
  rcases hok with ⟨d, hd⟩
  have h := C204_round_trip_partial force _ rfl m d hd
  rcases h.1.2 ⟨by simp, by simp, fun e h => by cases h⟩ with ⟨y, hy⟩
  have h2 := h.2 y hy
  exact ⟨d, y, hd, hy, h2.1, h2.2.1, h2.2.2.2.2.2 v rfl hv, h2.2.2.2.1, h2.2.2.1⟩

/-- C204 (violation): a new event cannot be read from what it writes. -/
theorem C204_pending_violation (force : V → Option V) (m : Mode) :
    ∃ d, eventToDict force ⟨.pending, false, none, .sentinel, .unset, none⟩ m = .ok d ∧ readExecution d = .error .validation := by
  cases m <;> exact ⟨_, rfl, rfl⟩

/-- C204 (violation): nor can a failed one. -/
theorem C204_failed_violation (force : V → Option V) (cls message : Text) (t : Rat) (r : Bool) :
    ∃ d, eventToDict force ⟨.failed, false, some t, .sentinel, .exc (.plain cls message), some r⟩ .python = .ok d ∧ readExecution d = .error .validation :=
  ⟨_, rfl, rfl⟩

/-- C204 (violation): a restored event cannot be written again: its status is a text. -/
theorem C204_again_violation (force : V → Option V) (d : ExecDict) (y : Execution) (h : readExecution d = .ok y) (m : Mode) :
    eventToDict force y m = .error .attributeError := by
  simp only [readExecution] at h
  split at h
  · cases h; cases m <;> rfl
  · cases h

/-- C203 (failures): in mode python only an event restored by `from_dict` cannot be written (AttributeError); in mode json also what C203 describes, with TypeError. -/
theorem C203_raises_partial (force : V → Option V) (x : Execution) (m : Mode) (e : Exc) :
    eventToDict force x m = .error e ↔
      (x.statusIsText = true ∧ e = .attributeError) ∨
      (x.statusIsText = false ∧ m = .json ∧ e = .typeError ∧
        ¬ ((∀ v, x.response = .value v → ¬ Unwritable v) ∧ (∀ e, x.error = .exc e → ErrSafe 101 e))) := by
  cases hx : x.statusIsText with
  | true => cases m <;> simp [eventToDict, execToDict, hx, eq_comm]
  | false =>
    cases m with
    | python => simp [eventToDict, execToDict, hx]
    | json =>
      rw [← C203_json_partial force x hx]
      simp only [eventToDict, execToDict, hx, Bool.false_eq_true, if_false, false_and, false_or, true_and]
      split
      · simp
      · simp [eq_comm]

/-- C204 (failures): what cannot be read is refused with a validation error. -/
theorem C204_refused_partial (d : ExecDict) (e : Exc) (h : readExecution d = .error e) : e = .validation := by
  simp only [readExecution] at h
  split at h
  · cases h
  · cases h; rfl

end Verif.EventSerial
