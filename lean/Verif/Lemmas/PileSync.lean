import Verif.Model.PileSync
import Verif.Lemmas.SyncLin

/-! # The bodies of the synchronized methods do what the sequential models do -/

set_option linter.unusedSectionVars false
set_option linter.unusedVariables false
set_option linter.unusedSimpArgs false

namespace Verif.Sync

variable {σ α β P : Type}

theorem exec_act (f : σ → σ × β) (s : σ) : exec (act f) s = f s := rfl

/-- The rest of a sequence that may raise. -/
def contE (k : β → Prog σ (Except Exc α)) (x : σ × Except Exc β) : σ × Except Exc α := exec (onOk k x.2) x.1

theorem contE_ok (k : β → Prog σ (Except Exc α)) (s : σ) (b : β) : contE k (s, .ok b) = exec (k b) s := rfl
theorem contE_err (k : β → Prog σ (Except Exc α)) (s : σ) (e : Exc) : contE k (s, .error e) = (s, .error e) := rfl

theorem exec_andThen (p : Prog σ (Except Exc β)) (k : β → Prog σ (Except Exc α)) (s : σ) :
    exec (andThen p k) s = contE k (exec p s) := by
  simp only [andThen, exec_bind, contE]

/-- Putting and getting a part behave as expected. -/
structure Part.Lawful (L : Part σ P) : Prop where
  get_put : ∀ p s, L.get (L.put p s) = p
  put_put : ∀ p q s, L.put p (L.put q s) = L.put p s
  put_get : ∀ s, L.put (L.get s) s = s

theorem whole_lawful (l : Nat) : (whole l : Part P P).Lawful := ⟨fun _ _ => rfl, fun _ _ _ => rfl, fun _ => rfl⟩

theorem exec_partAct (L : Part σ P) (f : P → P × β) (s : σ) :
    exec (L.act f) s = (L.put (f (L.get s)).1 s, (f (L.get s)).2) := rfl

/-! ### Lock discipline -/

theorem Nested.act {B : Nat} {b : List Nat} (f : σ → σ × β) : Nested B b [] (act f) := by
  simp [Sync.act, Nested]

theorem Nested.partAct {B : Nat} {b : List Nat} (L : Part σ P) (f : P → P × β) : Nested B b [] (L.act f) := Nested.act _

theorem Nested.ret {B : Nat} {b : List Nat} (a : α) : Nested B b [] (.ret a : Prog σ α) := by simp [Nested]

theorem Nested.andThen {B : Nat} {b : List Nat} {p : Prog σ (Except Exc β)} {k : β → Prog σ (Except Exc α)}
    (hp : Nested B b [] p) (hk : ∀ x, Nested B b [] (k x)) : Nested B b [] (Sync.andThen p k) := by
  refine Nested.bind (fun a => ?_) p [] hp
  cases a with
  | error e => exact Nested.ret _
  | ok x => exact hk x

end Verif.Sync

namespace Verif.PileSync

open Verif.Sync

variable {ι γ δ σ α : Type} [DecidableEq ι] [DecidableEq γ]

theorem exec_mapOk {β β' : Type} (f : β → β') (p : Prog σ (Except Exc β)) (s : σ) :
    exec (mapOk f p) s = ((exec p s).1, (exec p s).2.map f) := by
  simp only [mapOk, exec_bind, exec]

theorem addBody_exec {L : Part σ (Pile ι γ δ)} (hL : L.Lawful) (sub : γ → γ → Bool) (a : Pile.Arg ι γ δ) (s : σ) :
    exec (addBody L sub a) s = L.lift (fun p => Pile.add sub p a) s := by
  simp only [addBody, exec_andThen, exec_partAct, Part.lift]
  cases a with
  | none => simp [addCheck, Pile.add, contE, onOk, exec, hL.put_get]
  | some x =>
    simp only [addCheck, Pile.add]
    split
    · simp [contE, onOk, exec]
    · split
      · simp [contE, onOk, exec]
      · simp [contE, onOk, exec, exec_andThen, exec_partAct, putItem, appendId, hL.get_put, hL.put_put]

theorem removeBody_exec {L : Part σ (Pile ι γ δ)} (hL : L.Lawful) (r : Ref ι) (s : σ) :
    exec (removeBody L r) s = L.lift (fun p => Pile.remove p r) s := by
  simp only [removeBody, exec_andThen, exec_partAct, Part.lift]
  cases r with
  | none => simp [popItem, Pile.remove, contE, onOk, exec]
  | some u =>
    simp only [popItem, Pile.remove]
    cases (L.get s).items.get? u with
    | none => simp [contE, onOk, exec]
    | some x => 
      simp only [contE, onOk, exec_partAct, removeId, hL.get_put, hL.put_put]
      by_cases h : u ∈ (L.get s).order
      · simp [Progression.remove, h]
      · simp [Progression.remove, h]

theorem popBody_exec {L : Part σ (Pile ι γ δ)} (hL : L.Lawful) (r : Ref ι) (d : Bool) (s : σ) :
    exec (popBody L r d) s = L.lift (fun p => Pile.pop p r d) s := by
  simp only [popBody, exec_andThen, exec_partAct, Part.lift]
  cases r with
  | none => simp [popItemD, Pile.pop, contE, onOk, exec]
  | some u =>
    simp only [popItemD, Pile.pop]
    cases (L.get s).items.get? u with
    | none =>
      cases d
      · simp [contE, onOk, exec, popRest]
      · simp [contE, onOk, exec, popRest]
    | some x =>
      simp only [contE_ok, popRest, exec_andThen, exec_partAct, removeId, hL.get_put, hL.put_put]
      by_cases h : u ∈ (L.get s).order
      · simp [Progression.remove, h, contE_ok, someItem, exec]
      · simp [Progression.remove, h, contE_err, someItem, exec]

theorem updateBody_exec {L : Part σ (Pile ι γ δ)} (hL : L.Lawful) (sub : γ → γ → Bool) (a : Pile.Arg ι γ δ) (s : σ) :
    exec (updateBody L sub a) s = L.lift (fun p => Pile.update sub p a) s := by
  simp only [updateBody, exec_andThen, exec_partAct, Part.lift]
  cases a with
  | none => simp [updateCheck, Pile.update, contE, onOk, exec]
  | some x =>
    simp only [updateCheck, Pile.update]
    split
    · simp [contE, onOk, exec]
    · split
      · simp [contE, onOk, exec]
      · simp [contE_ok, exec_partAct, putItem, hL.get_put, hL.put_put]

theorem clearBody_exec {L : Part σ (Pile ι γ δ)} (hL : L.Lawful) (s : σ) :
    exec (clearBody L) s = L.lift Pile.clear s := by
  simp [clearBody, exec_andThen, exec_partAct, Part.lift, clearItems, clearOrder, Pile.clear, contE_ok, hL.get_put, hL.put_put]

theorem indexBody_exec {L : Part σ (Pile ι γ δ)} (hL : L.Lawful) (i : Int) (s : σ) :
    exec (indexBody L i) s = L.lift (fun p => (p, Pile.getByIndex p i)) s := by
  simp only [indexBody, exec_andThen, exec_partAct, Part.lift, read, idAt, Pile.getByIndex, hL.put_get]
  cases Py.getIdx (L.get s).order i with
  | none => rfl
  | some u =>
    simp only [contE_ok, exec_partAct, read, itemOf, hL.put_get]
    cases (L.get s).items.get? u <;> rfl

/-- What a call does, from the sequential model. -/
def seq (sub : γ → γ → Bool) (c : Call ι γ δ) (p : Pile ι γ δ) : Res (Pile ι γ δ) (Pile.Out ι γ δ) :=
  match c with
  | .add a => Pile.step sub p (.add a)
  | .remove r => Pile.step sub p (.remove r)
  | .pop r d => Pile.step sub p (.pop r d)
  | .get r d => Pile.step sub p (.get r d)
  | .update a => Pile.step sub p (.update a)
  | .clear => Pile.step sub p .clear
  | .contains r => Pile.step sub p (.contains r)
  | .len => Pile.step sub p .len
  | .index i => (p, (Pile.getByIndex p i).map .item)

theorem body_exec {L : Part σ (Pile ι γ δ)} (hL : L.Lawful) (sub : γ → γ → Bool) (c : Call ι γ δ) (s : σ) :
    exec (body L sub c) s = L.lift (seq sub c) s := by
  cases c with
  | add a => rw [body, exec_mapOk, addBody_exec hL]; rfl
  | remove a => rw [body, exec_mapOk, removeBody_exec hL]; rfl
  | pop r d => rw [body, exec_mapOk, popBody_exec hL]; rfl
  | get r d => rw [body, exec_mapOk, exec_partAct]; rfl
  | update a => rw [body, exec_mapOk, updateBody_exec hL]; rfl
  | clear => rw [body, exec_mapOk, clearBody_exec hL]; rfl
  | contains r => rw [body, exec_partAct]; rfl
  | len => rw [body, exec_partAct]; rfl
  | index i => rw [body, exec_mapOk, indexBody_exec hL]; rfl

theorem mapOk_nested {β β' : Type} {B : Nat} {b : List Nat} (f : β → β') {p : Prog σ (Except Exc β)} (hp : Nested B b [] p) :
    Nested B b [] (mapOk f p) := Nested.bind (fun a => Nested.ret _) p [] hp

theorem addBody_nested {B : Nat} {b : List Nat} (L : Part σ (Pile ι γ δ)) (sub : γ → γ → Bool) (a : Pile.Arg ι γ δ) :
    Nested B b [] (addBody L sub a) :=
  Nested.andThen (Nested.partAct _ _) (fun _ => Nested.andThen (Nested.partAct _ _) (fun _ => Nested.partAct _ _))

theorem removeBody_nested {B : Nat} {b : List Nat} (L : Part σ (Pile ι γ δ)) (r : Ref ι) : Nested B b [] (removeBody L r) :=
  Nested.andThen (Nested.partAct _ _) (fun _ => Nested.partAct _ _)

theorem body_nested {B : Nat} {b : List Nat} (L : Part σ (Pile ι γ δ)) (sub : γ → γ → Bool) (c : Call ι γ δ) :
    Nested B b [] (body L sub c) := by
  cases c with
  | add a => exact mapOk_nested _ (addBody_nested L sub a)
  | remove a => exact mapOk_nested _ (removeBody_nested L a)
  | pop r d =>
    refine mapOk_nested _ (Nested.andThen (Nested.partAct _ _) (fun x => ?_))
    cases x with
    | none => exact Nested.ret _
    | some u => exact Nested.andThen (Nested.partAct _ _) (fun _ => Nested.ret _)
  | get r d => exact mapOk_nested _ (Nested.partAct _ _)
  | update a => exact mapOk_nested _ (Nested.andThen (Nested.partAct _ _) (fun _ => Nested.partAct _ _))
  | clear => exact mapOk_nested _ (Nested.andThen (Nested.partAct _ _) (fun _ => Nested.partAct _ _))
  | contains r => exact Nested.partAct _ _
  | len => exact Nested.partAct _ _
  | index i => exact mapOk_nested _ (Nested.andThen (Nested.partAct _ _) (fun _ => Nested.partAct _ _))

end Verif.PileSync

namespace Verif.GraphSync

open Verif.Sync Verif.PileSync

variable {ι ν ε : Type} [DecidableEq ι]

theorem nodesL_lawful : (nodesL : Part (Graph ι ν ε) _).Lawful := ⟨fun _ _ => rfl, fun _ _ _ => rfl, fun _ => rfl⟩
theorem edgesL_lawful : (edgesL : Part (Graph ι ν ε) _).Lawful := ⟨fun _ _ => rfl, fun _ _ _ => rfl, fun _ => rfl⟩

theorem nodes_act {β : Type} (f : Pile ι Unit ν → Pile ι Unit ν × β) (g : Graph ι ν ε) :
    exec (nodesL.act f) g = ({ g with nodes := (f g.nodes).1 }, (f g.nodes).2) := rfl
theorem edges_act {β : Type} (f : Pile ι Unit (EdgeData ι ε) → Pile ι Unit (EdgeData ι ε) × β) (g : Graph ι ν ε) :
    exec (edgesL.act f) g = ({ g with edges := (f g.edges).1 }, (f g.edges).2) := rfl
theorem nodes_lift {β : Type} (f : Pile ι Unit ν → Pile ι Unit ν × β) (g : Graph ι ν ε) :
    nodesL.lift f g = ({ g with nodes := (f g.nodes).1 }, (f g.nodes).2) := rfl
theorem edges_lift {β : Type} (f : Pile ι Unit (EdgeData ι ε) → Pile ι Unit (EdgeData ι ε) × β) (g : Graph ι ν ε) :
    edgesL.lift f g = ({ g with edges := (f g.edges).1 }, (f g.edges).2) := rfl

theorem addNode_exec (a : Pile.Arg ι Unit ν) (g : Graph ι ν ε) : exec (addNode a) g = Graph.addNode g a := by
  cases a with
  | none => rfl
  | some x =>
    simp only [addNode, exec_andThen, exec_withLock, addBody_exec nodesL_lawful, nodes_lift, Graph.addNode]
    rcases Pile.add Graph.anySub g.nodes (some x) with ⟨p, e | ⟨⟩⟩
    · rfl
    · simp only [contE_ok, exec_andThen, exec_act, initOut, initInn]

theorem addEdge_exec (a : Pile.Arg ι Unit (EdgeData ι ε)) (g : Graph ι ν ε) : exec (addEdge a) g = Graph.addEdge g a := by
  cases a with
  | none => rfl
  | some x =>
    simp only [addEdge, exec_andThen, exec_withLock, Graph.addEdge, nodes_act, PileSync.read, needNode]
    split
    · rfl
    · simp only [contE_ok, exec_andThen, exec_withLock, nodes_act, PileSync.read, needNode]
      split
      · rfl
      · simp only [contE_ok, exec_andThen, exec_withLock, addBody_exec edgesL_lawful, edges_lift]
        rcases Pile.add Graph.anySub g.edges (some x) with ⟨p, e | ⟨⟩⟩
        · rfl
        · simp only [contE_ok, exec_andThen, exec_act, linkOut]
          cases g.out.get? x.data.head with
          | none => rfl
          | some l =>
            simp only [contE_ok, exec_act, linkInn]
            cases g.inn.get? x.data.tail <;> rfl

theorem removeEdge_exec (r : Ref ι) (g : Graph ι ν ε) : exec (removeEdge r) g = Graph.removeEdge g r := by
  cases r with
  | none => rfl
  | some u =>
    simp only [removeEdge, exec_andThen, exec_withLock, Graph.removeEdge, edges_act, PileSync.read, need]
    cases g.edges.items.get? u with
    | none => rfl
    | some e =>
      simp only [contE_ok, exec_andThen, exec_act, unlinkOut]
      cases g.out.get? e.data.head with
      | none => rfl
      | some l =>
        simp only [contE_ok, exec_andThen, exec_act, unlinkInn]
        cases g.inn.get? e.data.tail with
        | none => rfl
        | some m =>
          simp only [contE_ok, exec_withLock]
          rw [removeBody_exec edgesL_lawful]
          rfl

theorem removeEdges_exec (es : List ι) : ∀ g : Graph ι ν ε, exec (removeEdges es) g = Graph.removeEdges g es := by
  induction es with
  | nil => intro g; rfl
  | cons e es ih =>
    intro g
    simp only [removeEdges, exec_andThen, exec_withLock, removeEdge_exec, Graph.removeEdges]
    rcases Graph.removeEdge g (some e) with ⟨g', e' | x⟩
    · rfl
    · simp only [contE_ok, ih]

theorem removeNode_exec (o : SetOrder ι) (r : Ref ι) (g : Graph ι ν ε) : exec (removeNode o r) g = Graph.removeNode o g r := by
  cases r with
  | none => rfl
  | some u =>
    simp only [removeNode, exec_andThen, exec_withLock, Graph.removeNode, nodes_act, PileSync.read, need]
    cases g.nodes.items.get? u with
    | none => rfl
    | some e =>
      simp only [contE_ok, exec_andThen, exec_act, listInn]
      cases g.inn.get? u with
      | none => rfl
      | some ins =>
        simp only [contE_ok, exec_andThen, removeEdges_exec]
        rcases Graph.removeEdges g (o.inn u ins) with ⟨g1, e1 | ⟨⟩⟩
        · rfl
        · simp only [contE_ok, exec_andThen, exec_act, listOut]
          cases g1.out.get? u with
          | none => rfl
          | some outs =>
            simp only [contE_ok, exec_andThen, removeEdges_exec]
            rcases Graph.removeEdges g1 (o.out u outs) with ⟨g2, e2 | ⟨⟩⟩
            · rfl
            · simp only [contE_ok, exec_andThen, exec_act, delInn, delOut, exec_withLock]
              rw [removeBody_exec nodesL_lawful]
              rfl

theorem body_exec (op : Graph.Op ι ν ε) (g : Graph ι ν ε) : exec (body op) g = Graph.step g op := by
  cases op with
  | addNode a => rw [body, exec_mapOk, addNode_exec]; rfl
  | removeNode o r => rw [body, exec_mapOk, removeNode_exec]; rfl
  | addEdge a => rw [body, exec_mapOk, addEdge_exec]; rfl
  | removeEdge r => rw [body, exec_mapOk, removeEdge_exec]; rfl

theorem take1 : MayTake 3 [0] 1 := by simp [MayTake]
theorem take2 : MayTake 3 [0] 2 := by simp [MayTake]
theorem take0 : MayTake 3 [0] 0 := by simp [MayTake]
theorem take2' : MayTake 3 [0, 0] 2 := by simp [MayTake]

theorem removeEdge_nested {b : List Nat} (hb : MayTake 3 b 2) (r : Ref ι) :
    Nested 3 b [] (removeEdge r : Prog (Graph ι ν ε) _) := by
  cases r with
  | none => exact Nested.ret _
  | some u =>
    exact Nested.andThen (Nested.withLock hb (Nested.partAct _ _)) (fun _ => Nested.andThen (Nested.act _) (fun _ =>
      Nested.andThen (Nested.act _) (fun _ => Nested.withLock hb (removeBody_nested _ _))))

theorem removeEdges_nested (es : List ι) : Nested 3 [0] [] (removeEdges es : Prog (Graph ι ν ε) _) := by
  induction es with
  | nil => exact Nested.ret _
  | cons e es ih => exact Nested.andThen (Nested.withLock take0 (removeEdge_nested take2' _)) (fun _ => ih)

theorem body_nested (op : Graph.Op ι ν ε) : Nested 3 [0] [] (body op) := by
  cases op with
  | addNode a =>
    refine mapOk_nested _ ?_
    cases a with
    | none => exact Nested.ret _
    | some x =>
      exact Nested.andThen (Nested.withLock take1 (addBody_nested _ _ _)) (fun _ => Nested.andThen (Nested.act _) (fun _ => Nested.act _))
  | addEdge a =>
    refine mapOk_nested _ ?_
    cases a with
    | none => exact Nested.ret _
    | some x =>
      exact Nested.andThen (Nested.withLock take1 (Nested.partAct _ _)) (fun _ =>
        Nested.andThen (Nested.withLock take1 (Nested.partAct _ _)) (fun _ =>
        Nested.andThen (Nested.withLock take2 (addBody_nested _ _ _)) (fun _ =>
        Nested.andThen (Nested.act _) (fun _ => Nested.act _))))
  | removeEdge r => exact mapOk_nested _ (removeEdge_nested take2 r)
  | removeNode o r =>
    refine mapOk_nested _ ?_
    cases r with
    | none => exact Nested.ret _
    | some u =>
      exact Nested.andThen (Nested.withLock take1 (Nested.partAct _ _)) (fun _ =>
        Nested.andThen (Nested.act _) (fun _ => Nested.andThen (removeEdges_nested _) (fun _ =>
        Nested.andThen (Nested.act _) (fun _ => Nested.andThen (removeEdges_nested _) (fun _ =>
        Nested.andThen (Nested.act _) (fun _ => Nested.andThen (Nested.act _) (fun _ =>
        Nested.withLock take1 (removeBody_nested _ _))))))))

end Verif.GraphSync
