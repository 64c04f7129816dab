import Verif.Model.Nested
import Verif.Props.ContainerKeys

/-!
# Property C278: piles inside piles come back from their dict
-/

set_option linter.unusedSectionVars false
set_option linter.unusedSimpArgs false
set_option linter.unusedVariables false

namespace Verif.Nested

open Verif.Flow (metaName metaFound)
open Verif.Container (Finds ItemFinds named)

variable {ι γ α D : Type} [DecidableEq ι] [DecidableEq γ]

/-! ## Specification -/

/-- `q` is the pile `p` up to the relation `R` on items: the same number of items, related position by position, the same constraint,
strictness and name. -/
def SameP {δ : Type} (R : Item ι γ δ → Item ι γ δ → Prop) (p q : Pile ι γ δ) : Prop :=
  (∃ l m, Pile.iter p = .ok l ∧ Pile.iter q = .ok m ∧ l.length = m.length ∧
    ∀ (i : Nat) x y, l[i]? = some x → m[i]? = some y → R x y) ∧
  q.itemType = p.itemType ∧ q.strict = p.strict ∧ q.pname = p.pname

/-- Two contents are the same: equal plain data, or the same pile. -/
def SameB {δ : Type} (R : Item ι γ δ → Item ι γ δ → Prop) : α ⊕ Pile ι γ δ → α ⊕ Pile ι γ δ → Prop
  | .inl a, .inl b => a = b
  | .inr p, .inr q => SameP R p q
  | _, _ => False

/-- Two elements are the same: id, class and contents, down to every depth. -/
def Same : (n : Nat) → Item ι γ (Body ι γ α n) → Item ι γ (Body ι γ α n) → Prop
  | 0, x, y => y.id = x.id ∧ y.cls = x.cls ∧ y.data = x.data
  | n + 1, x, y => y.id = x.id ∧ y.cls = x.cls ∧ SameB (Same n) x.data y.data

/-- A pile that its API can have built (the items being what they are when `to_dict` is called), in the domain of C10: a constraint, if
any, is not the empty set, a name is not empty; all items satisfy `G`. -/
def GoodP {δ : Type} (sub : γ → γ → Bool) (G : Item ι γ δ → Prop) (p : Pile ι γ δ) : Prop :=
  (∃ p₀ n, Pile.Reachable sub p₀ ∧ p = { p₀ with pname := n } ∧ n ≠ some "") ∧ p.itemType ≠ some [] ∧
    ∀ l, Pile.iter p = .ok l → ∀ x ∈ l, G x

/-- Contents all of whose piles are good. -/
def GoodB {δ : Type} (sub : γ → γ → Bool) (G : Item ι γ δ → Prop) : α ⊕ Pile ι γ δ → Prop
  | .inl _ => True
  | .inr p => GoodP sub G p

/-- An element all of whose piles, at every depth, are good. -/
def Good (sub : γ → γ → Bool) : (n : Nat) → Item ι γ (Body ι γ α n) → Prop
  | 0, _ => True
  | n + 1, x => GoodB sub (Good sub n) x.data

/-! ## Lemmas -/

theorem same_id : ∀ (n : Nat) (x y : Item ι γ (Body ι γ α n)), Same n x y → y.id = x.id
  | 0, _, _, h => h.1
  | _ + 1, _, _, h => h.1

theorem same_cls : ∀ (n : Nat) (x y : Item ι γ (Body ι γ α n)), Same n x y → y.cls = x.cls
  | 0, _, _, h => h.2.1
  | _ + 1, _, _, h => h.2.1

theorem writeAll_spec {δ : Type} (sub : γ → γ → Bool) (clsName : γ → String) (lc : D → Option String)
    (f : Item ι γ δ → Except Exc D) (g : D → Except Exc (Item ι γ δ)) (R : Item ι γ δ → Item ι γ δ → Prop)
    (hid : ∀ x y, R x y → y.id = x.id) (hcl : ∀ x y, R x y → y.cls = x.cls) (l : List (Item ι γ δ))
    (h : ∀ x ∈ l, ∃ w y, f x = .ok w ∧ g w = .ok y ∧ R x y ∧ (lc w = none ∨ lc w = some (clsName x.cls))) :
    ∃ (ws : List D) (ys : List (Item ι γ δ)), writeAll f l = .ok ws ∧ ys.map Item.id = l.map Item.id ∧ l.length = ys.length ∧
      (∀ (i : Nat) x y, l[i]? = some x → ys[i]? = some y → R x y) ∧
      (∀ r, Pile.addDecoded sub g r ws = Pile.addAll sub r (ys.map some)) ∧
      (∀ w ∈ ws, ∃ x ∈ l, lc w = none ∨ lc w = some (clsName x.cls)) ∧ (∀ y ∈ ys, ∃ x ∈ l, y.cls = x.cls) := by
  induction l with
  | nil => exact ⟨[], [], rfl, rfl, rfl, by simp, fun r => rfl, by simp, by simp⟩
  | cons a l ih =>
    obtain ⟨w, y, hw, hy, hr, hl⟩ := h a (by simp)
    obtain ⟨ws, ys, h1, h2, h3, h4, h5, h6, h7⟩ := ih (fun x hx => h x (by simp [hx]))
    refine ⟨w :: ws, y :: ys, by simp only [writeAll, hw, h1], by simp [h2, hid _ _ hr], by simp [h3], ?_, ?_, ?_, ?_⟩
    · intro i x z hx hz
      cases i with
      | zero =>
        simp only [List.getElem?_cons_zero, Option.some.injEq] at hx hz
        rw [← hx, ← hz]; exact hr
      | succ i =>
        simp only [List.getElem?_cons_succ] at hx hz
        exact h4 i x z hx hz
    · intro r
      simp only [List.map_cons, Pile.addDecoded, Pile.addAll, hy]
      cases hadd : Pile.add sub r (some y) with
      | mk r' res =>
        cases res with
        | error e => rfl
        | ok u => exact h5 r'
    · intro v hv
      rcases List.mem_cons.1 hv with rfl | hv
      · exact ⟨a, by simp, hl⟩
      · obtain ⟨x, hx, hx'⟩ := h6 v hv
        exact ⟨x, by simp [hx], hx'⟩
    · intro v hv
      rcases List.mem_cons.1 hv with rfl | hv
      · exact ⟨a, by simp, hcl _ _ hr⟩
      · obtain ⟨x, hx, hx'⟩ := h7 v hv
        exact ⟨x, by simp [hx], hx'⟩

/-- Writing and reading a good pile whose items each come back up to `R`. -/
theorem pile_trip {δ : Type} (sub : γ → γ → Bool) (clsName : γ → String) (load : String → Option γ) (lc : D → Option String)
    (f : Item ι γ δ → Except Exc D) (g : D → Except Exc (Item ι γ δ)) (R : Item ι γ δ → Item ι γ δ → Prop) (G : Item ι γ δ → Prop)
    (hid : ∀ x y, R x y → y.id = x.id) (hcl : ∀ x y, R x y → y.cls = x.cls) (hload : ∀ c, load (clsName c) = some c)
    (h : ∀ x, G x → ∃ w y, f x = .ok w ∧ g w = .ok y ∧ R x y ∧ (lc w = none ∨ lc w = some (clsName x.cls)))
    (p : Pile ι γ δ) (hp : GoodP sub G p) :
    ∃ d q, writePile clsName f p = .ok d ∧ Pile.fromDict sub load lc g d = .ok q ∧ SameP R p q := by
  obtain ⟨⟨p₀, n, hr, rfl, hn⟩, hne, hg⟩ := hp
  have hi : Pile.Inv { p₀ with pname := n } := ⟨hr.inv.wf, hr.inv.nodup, hr.inv.mem_iff, hr.inv.ids⟩
  have hit := Pile.iter_eq hi
  have habs : Pile.abs { p₀ with pname := n } = Pile.abs p₀ := rfl
  rw [habs] at hit
  obtain ⟨ws, ys, h1, h2, h3, h4, h5, h6, h7⟩ := writeAll_spec sub clsName lc f g R hid hcl (Pile.abs p₀)
    (fun x hx => h x (hg _ hit x hx))
  have hvalid : ∀ x ∈ Pile.abs p₀, Pile.validType sub p₀.itemType p₀.strict x = true :=
    fun x hx => hr.typed _ _ ((Pile.mem_abs hr.inv x).1 hx)
  have hvy : ∀ y ∈ ys, Pile.validType sub p₀.itemType p₀.strict y = true := by
    intro y hy
    obtain ⟨x, hx, hc⟩ := h7 y hy
    have := hvalid x hx
    unfold Pile.validType at this ⊢
    rw [hc]; exact this
  let p₁ : Pile ι γ δ := { itemType := p₀.itemType, strict := p₀.strict, pname := n }
  have hp₁ : Pile.Inv p₁ := Pile.inv_empty _ _ _
  obtain ⟨q, hq⟩ := Pile.addAll_ok sub hp₁ ys hvy (by rw [h2]; exact Pile.abs_nodup hr.inv) (by simp [p₁, Dict.keys])
  obtain ⟨hqi, hq1, hq2, hq3, hqa⟩ := Pile.addAll_spec sub hp₁ _ q hq
  have hqabs : Pile.abs q = ys := by
    have : (Pile.abs q).map some = ys.map some := by simpa [Pile.abs, p₁] using hqa
    exact (List.map_inj_right (fun _ _ h => Option.some.inj h)).1 this
  have htr : Pile.truthyName (Pile.truthyName n) = n := by
    cases n with
    | none => rfl
    | some s =>
      have : s ≠ "" := fun e => hn (by rw [e])
      simp [Pile.truthyName, this]
  refine ⟨_, q, by simp only [writePile, hit, h1]; rfl, ?_, ⟨Pile.abs p₀, ys, hit, ?_, h3, h4⟩, hq1, hq2, hq3⟩
  · have hpre : ∀ ts, p₀.itemType = some ts → ws.all (Pile.precheck sub load lc ts p₀.strict) = true := by
      intro ts hts
      rw [List.all_eq_true]
      intro d hd
      obtain ⟨x, hx, hx'⟩ := h6 d hd
      have hv := hvalid x hx
      rw [hts] at hv
      rcases hx' with hn | hs
      · simp only [Pile.precheck, hn]
      · simp only [Pile.precheck, hs, hload]
        simpa [Pile.validType] using hv
    unfold Pile.fromDict
    simp only [htr]
    cases hts : p₀.itemType with
    | none =>
      simp only [Option.map_none, Pile.itemTypeData, Pile.loadTypes, Pile.precheckAll, Bool.true_eq_false, if_false]
      rw [h5]
      simpa [p₁, hts] using hq
    | some ts =>
      cases ts with
      | nil => exact absurd hts hne
      | cons c cs =>
        have hl := Pile.loadAll_map load clsName (c :: cs) (fun d _ => hload d)
        simp only [Option.map_some, List.map_cons] at hl ⊢
        simp only [Pile.itemTypeData, Pile.loadTypes, hl]
        have hpa : Pile.precheckAll sub load lc (some (c :: cs)) p₀.strict ws = true := hpre _ hts
        rw [if_neg (by simp [hpa])]
        rw [h5]
        simpa [p₁, hts] using hq
  · rw [Pile.iter_eq hqi, hqabs]

theorem readClass_ok {B : Type} (clsName : γ → String) (load : String → Option γ) (hload : ∀ c, load (clsName c) = some c)
    (ikey ikey' : Option String) (hk : ItemFinds ikey ikey') (i : ι) (c : γ) (b : B) :
    readClass load ikey' (⟨metaName .json ikey, i, clsName c, b⟩ : Written ι B) = .ok c := by
  unfold readClass
  simp only [(Container.found_iff ikey ikey').2 hk, if_true, hload]

theorem lionClass_cases {B : Type} (k : String) (i : ι) (s : String) (b : B) :
    lionClass (⟨k, i, s, b⟩ : Written ι B) = none ∨ lionClass (⟨k, i, s, b⟩ : Written ι B) = some s := by
  unfold lionClass
  split
  · exact Or.inr rfl
  · exact Or.inl rfl

theorem read_zero (sub : γ → γ → Bool) (load : String → Option γ) (key : Option String) (w : Written ι (WBody ι α 0)) (c : γ)
    (h : readClass load key w = .ok c) : read (γ := γ) sub load 0 key w = .ok ⟨w.id, c, w.body⟩ := by
  simp only [read, h]

theorem read_inl (sub : γ → γ → Bool) (load : String → Option γ) (n : Nat) (key : Option String) (k s : String) (i : ι) (a : α) (c : γ)
    (h : readClass load key (⟨k, i, s, .inl a⟩ : Written ι (WBody ι α (n + 1))) = .ok c) :
    read (γ := γ) sub load (n + 1) key (⟨k, i, s, .inl a⟩ : Written ι (WBody ι α (n + 1))) = .ok ⟨i, c, .inl a⟩ := by
  simp only [read, h]

theorem read_inr (sub : γ → γ → Bool) (load : String → Option γ) (n : Nat) (key : Option String) (k s : String) (i : ι)
    (d : Pile.PileDict (Written ι (WBody ι α n))) (c : γ) (q : Pile ι γ (Body ι γ α n))
    (h : readClass load key (⟨k, i, s, .inr d⟩ : Written ι (WBody ι α (n + 1))) = .ok c)
    (hq : Pile.fromDict sub load lionClass (read sub load n none) d = .ok q) :
    read (γ := γ) sub load (n + 1) key (⟨k, i, s, .inr d⟩ : Written ι (WBody ι α (n + 1))) = .ok ⟨i, c, .inr q⟩ := by
  simp only [read, h, hq]

/-! ## C278 -/

theorem trip (sub : γ → γ → Bool) (clsName : γ → String) (load : String → Option γ) (hload : ∀ c, load (clsName c) = some c)
    (n : Nat) : ∀ (ikey ikey' : Option String), ItemFinds ikey ikey' → ∀ (x : Item ι γ (Body ι γ α n)), Good sub n x →
    ∃ w y, write clsName n ikey x = .ok w ∧ read sub load n ikey' w = .ok y ∧ Same n x y ∧
      (lionClass w = none ∨ lionClass w = some (clsName x.cls)) := by
  induction n with
  | zero =>
    intro ikey ikey' hk x _
    refine ⟨_, ⟨x.id, x.cls, x.data⟩, rfl, ?_, ⟨rfl, rfl, rfl⟩, lionClass_cases _ _ _ _⟩
    exact read_zero sub load ikey' _ x.cls (readClass_ok clsName load hload ikey ikey' hk _ _ _)
  | succ n ih =>
    intro ikey ikey' hk x hx
    obtain ⟨i, c, b⟩ := x
    cases b with
    | inl a =>
      refine ⟨_, ⟨i, c, .inl a⟩, rfl, ?_, ⟨rfl, rfl, rfl⟩, lionClass_cases _ _ _ _⟩
      exact read_inl sub load n ikey' _ _ _ _ _ (readClass_ok clsName load hload ikey ikey' hk _ _ _)
    | inr p =>
      obtain ⟨d, q, h1, h2, h3⟩ := pile_trip sub clsName load lionClass (write clsName n none) (read sub load n none)
        (Same n) (Good sub n) (same_id n) (same_cls n) hload
        (fun x hx => ih none none (by intro k hk; cases hk) x hx) p hx
      refine ⟨_, ⟨i, c, .inr q⟩, by simp only [write, h1]; rfl, ?_, ⟨rfl, rfl, h3⟩, lionClass_cases _ _ _ _⟩
      exact read_inr sub load n ikey' _ _ _ d c q (readClass_ok clsName load hload ikey ikey' hk _ _ _) h2

/-- **C278**.  A pile whose items are elements or piles, nested to any depth `n`, comes back from its dict: read with keys that find what
was written (C213), every pile at every depth has the same items in the same order, the same constraint, strictness and name; every
element has its id, its class and its data.  In mode "db" an empty `meta_key` loses the name of the outermost pile (C213), so that
combination is left out. -/
theorem C278_nested (sub : γ → γ → Bool) (clsName : γ → String) (load : String → Option γ)
    (hload : ∀ c, load (clsName c) = some c) (n : Nat) (p : Pile ι γ (Body ι γ α n)) (hp : GoodP sub (Good sub n) p)
    (mode : Element.Mode) (key ikey key' ikey' : Option String) (hk : Finds mode key key') (hik : ItemFinds ikey ikey')
    (hdb : ¬ (mode = .db ∧ key = some "")) :
    ∃ d q, pileToDict clsName n mode key ikey p = .ok d ∧ pileFromDict sub load n key' ikey' d = .ok q ∧ SameP (Same n) p q := by
  have hnm : named mode key p = p := by
    unfold named
    rw [if_pos ((Container.nameKey_eq mode key).2 hdb)]
  obtain ⟨d, q, h1, h2, h3⟩ := pile_trip sub clsName load lionClass (write clsName n ikey) (read sub load n ikey')
    (Same n) (Good sub n) (same_id n) (same_cls n) hload (trip sub clsName load hload n ikey ikey' hik) p hp
  refine ⟨⟨metaName mode key, d⟩, q, by simp only [pileToDict, hnm, h1], ?_, h3⟩
  simp only [pileFromDict, (Container.readable_iff mode key key').2 hk, if_true]
  exact h2

/-- **C278**, refusals: at every depth, an item or nested pile whose class cannot be loaded, or whose metadata is not found, is refused with `ValueError`. -/
theorem C278_refused (sub : γ → γ → Bool) (load : String → Option γ) (n : Nat) (key : Option String) (w : Written ι (WBody ι α n))
    (h : load w.cls = none ∨ metaFound key w.metaKey = false) : read sub load n key w = .error .valueError := by
  have hr : readClass load key w = .error .valueError := by
    unfold readClass
    rcases h with h | h
    · rw [h]; split <;> rfl
    · rw [h]; rfl
  cases n with
  | zero => simp only [read, hr]
  | succ n => simp only [read, hr]

/-- Non-vacuity of C278: an outer pile (elements and piles allowed) holding a plain element and a named pile of one element.  Classes are
0 (element) and 1 (pile). -/
def innerDemo : Pile Nat Nat (Body Nat Nat String 0) := { items := [(3, ⟨3, 0, "c"⟩)], order := [3], itemType := some [0], strict := true }

def outerDemo : Pile Nat Nat (Body Nat Nat String 1) :=
  { items := [(1, ⟨1, 0, .inl "a"⟩), (2, ⟨2, 1, .inr { innerDemo with pname := some "sub" }⟩)], order := [1, 2], itemType := some [0, 1] }

example : GoodP (· == ·) (Good (· == ·) 1) outerDemo := by
  have hin : Pile.Reachable (· == ·) innerDemo :=
    ⟨[some ⟨3, 0, "c"⟩], some [0], true, innerDemo, [], rfl, rfl⟩
  have hout : Pile.Reachable (· == ·) outerDemo :=
    ⟨[some ⟨1, 0, .inl "a"⟩, some ⟨2, 1, .inr { innerDemo with pname := some "sub" }⟩], some [0, 1], false, outerDemo, [], rfl, rfl⟩
  refine ⟨⟨outerDemo, none, hout, rfl, (by simp)⟩, (by simp [outerDemo]), ?_⟩
  intro l hl x hx
  have : l = [⟨1, 0, .inl "a"⟩, ⟨2, 1, .inr { innerDemo with pname := some "sub" }⟩] := by
    have h2 : Pile.iter outerDemo = .ok [⟨1, 0, .inl "a"⟩, ⟨2, 1, .inr { innerDemo with pname := some "sub" }⟩] := rfl
    rw [h2] at hl
    exact (Except.ok.inj hl).symm
  subst this
  rcases List.mem_cons.1 hx with rfl | hx
  · exact trivial
  · rcases List.mem_cons.1 hx with rfl | hx
    · exact ⟨⟨innerDemo, some "sub", hin, rfl, (by simp)⟩, (by simp [innerDemo]), fun _ _ _ _ => trivial⟩
    · cases hx

/-- What is written for it, with the items' metadata under "m": the nested pile's own items use the default key. -/
example : (pileToDict (fun c => if c = 0 then "E" else "P") 1 .json none (some "m") outerDemo).toOption.map
    (fun d => d.body.items.map (fun w => (w.metaKey, w.id, w.cls))) = some [("m", 1, "E"), ("m", 2, "P")] := by decide

/-- Non-vacuity: a nested item of an unknown class. -/
example : (read (ι := Nat) (α := String) (· == ·) (fun s => if s = "E" then some 0 else none) 1 none ⟨"metadata", 7, "Gone", .inl "a"⟩).toOption.isNone = true := by decide

end Verif.Nested
