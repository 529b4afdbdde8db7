import Verif.Spec.Answers
import Verif.Proofs.Program
import Verif.Props.Program

/-!
# The answers of examples/math and examples/builtin
-/

namespace Fmr

/-- `Semantic` of the tree, which begins at word `i`, is this text. -/
def MeansAt (nw : NodeWorld) (text : Bytes) (toks : List Token) (i : Nat) (n : Node) (m : String) : Prop :=
  ∀ p : Parsed, p.text = text → p.env.tokens = toks.drop i → n.semantic nw p = .ok m

/-- The parts of the text that `EarleyParseMaxAll` finds, and the meanings of their trees. -/
def TextMeans (w : World) (nw : NodeWorld) (g : Gram) (fuel : Nat) (start : String) (text : Bytes) (mss : List (List String)) : Prop :=
  ∃ (toks : List Token) (groups : List ((Nat × Nat) × List Node)), ParseGroups w g fuel "" text [start] toks groups ∧
    Rel2 (fun a ms => a.2 ≠ [] ∧ Rel2 (MeansAt nw text toks a.1.1) a.2 ms) groups mss

section
variable {V R : Type} {js : Js V R} {nw : NodeWorld}

theorem replies_exist (ms : List String) : ∀ v : V, ∃ rs v', Replies js v ms rs v' := by
  induction ms with
  | nil => exact fun v => ⟨[], v, .nil⟩
  | cons m ms ih =>
    intro v
    obtain ⟨rs, v', h⟩ := ih (js.run v m).1
    exact ⟨(js.run v m).2 :: rs, v', .cons rfl h⟩

theorem replies_append {v v₁ v₂ : V} {ms ms' : List String} {rs rs' : List (Option R)} (h : Replies js v ms rs v₁)
    (h' : Replies js v₁ ms' rs' v₂) : Replies js v (ms ++ ms') (rs ++ rs') v₂ := by
  induction h with
  | nil => exact h'
  | cons h1 _ ih => exact .cons h1 (ih h')

theorem Rel2.append {α β : Type} {P : α → β → Prop} {l m : List α} {l' m' : List β} (h : Rel2 P l l') (h' : Rel2 P m m') :
    Rel2 P (l ++ m) (l' ++ m') := by
  induction h with
  | nil => exact h'
  | cons h1 _ ih => exact .cons h1 ih

theorem call_bind {β : Type} {m : String} {v v₁ : V} {r : Option R} (h : js.run v m = (v₁, r)) (f : Option R → Act V β) :
    (js.call m >>= f) v = f r v₁ := by
  rw [Act.bind_of (v' := v₁) (o := []) (a := r) (by rw [Js.call, h])]
  rfl

theorem mathTrees_run {p : Parsed} {l : List Node} {ms : List String} (h : Rel2 (fun n m => n.semantic nw p = .ok m) l ms) {v v' : V}
    {rs : List (Option R)} (hr : Replies js v ms rs v') :
    forEach (mathTree nw js true p) l v = ((List.zipWith (mathShown js) ms rs).flatten, v', .ok ()) := by
  induction h generalizing v rs with
  | nil => cases hr; rfl
  | @cons n m l ms h1 _ ih =>
    cases hr with
    | @cons _ v₁ _ _ _ r rs g1 g2 =>
      have e : mathTree nw js true p n v = (mathShown js m r, v₁, .ok ()) := by
        rw [mathTree, need_ok h1, if_pos rfl, call_bind g1]
        cases r with
        | none => rfl
        | some r => simp only [say, mathShown, utf8_append]
      rw [forEach, Act.bind_of e, ih g2]
      rfl

theorem plainTrees_run {p : Parsed} {l : List Node} {ms : List String} (h : Rel2 (fun n m => n.semantic nw p = .ok m) l ms) {v : V} :
    forEach (mathTree nw js false p) l v = ((ms.map fun m => utf8 (m ++ "\n")).flatten, v, .ok ()) := by
  induction h with
  | nil => rfl
  | @cons n m l ms h1 _ ih =>
    have e : mathTree nw js false p n v = (utf8 (m ++ "\n"), v, .ok ()) := by
      rw [mathTree, need_ok h1, if_neg Bool.false_ne_true]
      rfl
    rw [forEach, Act.bind_of e, ih]
    rfl

theorem builtinTrees_run {l : List (Parsed × Node)} {ms : List String} (h : Rel2 (fun a m => a.2.semantic nw a.1 = .ok m) l ms) {v v' : V}
    {rs : List (Option R)} (hr : Replies js v ms rs v') :
    forEach (builtinTree nw js) l v = ((List.zipWith (builtinShown js) ms rs).flatten, v', .ok ()) := by
  induction h generalizing v rs with
  | nil => cases hr; rfl
  | @cons n m l ms h1 _ ih =>
    cases hr with
    | @cons _ v₁ _ _ _ r rs g1 g2 =>
      have e : builtinTree nw js n v = (builtinShown js m r, v₁, .ok ()) := by
        rw [builtinTree, need_ok h1, call_bind g1]
        cases r <;> simp only [say, builtinShown, utf8_append]
      rw [forEach, Act.bind_of e, ih g2]
      rfl

theorem mathParse_trees {fuel i : Nat} {eval : Bool} {p : Parsed} {ns : List Node} (hs : p.env.starts ≠ [])
    (ht : treesOf fuel true p = .ok ns) (hn : ns ≠ []) {v v' : V} {o : Bytes}
    (h : forEach (mathTree nw js eval p) ns v = (o, v', .ok ())) :
    mathParse nw js fuel eval (p, i) v = (utf8 ("p" ++ toString i ++ " tree number:" ++ toString ns.length ++ "\n") ++ o, v', .ok ()) := by
  obtain ⟨f, h1, h2⟩ := treesOf_single ht hs hn
  have e : mathParse nw js fuel eval (p, i) =
      ((sayString ("p" ++ toString i ++ " tree number:" ++ toString ns.length ++ "\n") >>= fun _ =>
        forEach (mathTree nw js eval p) ns) >>= fun _ => (pure () : Act V Unit)) := by
    rw [mathParse, h1, forEach, forEach, treesAt, need_ok h2]
  have e2 : (sayString ("p" ++ toString i ++ " tree number:" ++ toString ns.length ++ "\n") >>= fun _ =>
      forEach (mathTree nw js eval p) ns) v =
      (utf8 ("p" ++ toString i ++ " tree number:" ++ toString ns.length ++ "\n") ++ o, v', .ok ()) := by
    rw [Act.bind_of (v' := v) (o := utf8 ("p" ++ toString i ++ " tree number:" ++ toString ns.length ++ "\n")) (a := ()) rfl, h]
  rw [e, Act.bind_of e2]
  show (_ ++ [], v', _) = _
  rw [List.append_nil]

variable {text : Bytes} {toks : List Token} {fuel : Nat} {ps : List Parsed} {groups : List ((Nat × Nat) × List Node)}
  {mss : List (List String)}
  (hps : Rel2 (fun p a => p.text = text ∧ p.env.tokens = toks.drop a.1.1 ∧ p.env.starts ≠ [] ∧ (∃ s, p.res.finals = [s]) ∧
    treesOf fuel true p = .ok a.2) ps groups)
  (hm : Rel2 (fun a ms => a.2 ≠ [] ∧ Rel2 (MeansAt nw text toks a.1.1) a.2 ms) groups mss)
include hps hm

theorem mathParts_run : ∀ (i : Nat) (v : V), ∃ v' o, MathParts js i v mss v' o ∧
    forEach (mathParse nw js fuel true) (ps.zipIdx i) v = (o, v', .ok ()) := by
  induction hps generalizing mss with
  | nil =>
    cases hm
    exact fun i v => ⟨v, [], .nil, rfl⟩
  | @cons p a ps groups h1 _ ih =>
    cases hm with
    | @cons _ ms _ mss g1 g2 =>
      obtain ⟨k1, k2, k3, -, k5⟩ := h1
      intro i v
      have hsem : Rel2 (fun n m => n.semantic nw p = .ok m) a.2 ms := g1.2.imp fun n m h => h p k1 k2
      obtain ⟨rs, v₁, hr⟩ := replies_exist (js := js) ms v
      obtain ⟨v₂, o, q1, q2⟩ := ih g2 (i + 1) v₁
      refine ⟨v₂, _, .cons hr q1, ?_⟩
      have e := mathParse_trees (i := i) k3 k5 g1.1 (mathTrees_run hsem hr)
      rw [List.zipIdx_cons, forEach, Act.bind_of e, q2, hsem.length_eq]
      rfl

theorem plainParts_run (i : Nat) (v : V) : forEach (mathParse nw js fuel false) (ps.zipIdx i) v = (plainParts i mss, v, .ok ()) := by
  induction hps generalizing mss i with
  | nil =>
    cases hm
    rfl
  | @cons p a ps groups h1 _ ih =>
    cases hm with
    | @cons _ ms _ mss g1 g2 =>
      obtain ⟨k1, k2, k3, -, k5⟩ := h1
      have hsem : Rel2 (fun n m => n.semantic nw p = .ok m) a.2 ms := g1.2.imp fun n m h => h p k1 k2
      have e := mathParse_trees (js := js) (v := v) (i := i) k3 k5 g1.1 (plainTrees_run hsem)
      rw [List.zipIdx_cons, forEach, Act.bind_of e, ih g2, hsem.length_eq]
      rfl

theorem extractWith_run : ∃ l, extractWith fuel true (.ok ps) = .ok l ∧ Rel2 (fun a m => a.2.semantic nw a.1 = .ok m) l mss.flatten := by
  show ∃ l, outFlat _ ps = _ ∧ _
  induction hps generalizing mss with
  | nil =>
    cases hm
    exact ⟨[], rfl, .nil⟩
  | @cons p a ps groups h1 _ ih =>
    cases hm with
    | @cons _ ms _ mss g1 g2 =>
      obtain ⟨k1, k2, k3, -, k5⟩ := h1
      obtain ⟨l, q1, q2⟩ := ih g2
      refine ⟨a.2.map (fun n => (p, n)) ++ l, ?_, ?_⟩
      · rw [outFlat, k5]
        show (outFlat _ ps >>= fun y => Out.ok (a.2.map (fun n => (p, n)) ++ y)) = _
        rw [q1]
        rfl
      · rw [List.flatten_cons]
        refine Rel2.append ?_ q2
        have key : ∀ {ns : List Node} {ms : List String}, Rel2 (MeansAt nw text toks a.1.1) ns ms →
            Rel2 (fun a m => a.2.semantic nw a.1 = .ok m) (ns.map fun n => (p, n)) ms := by
          intro ns ms h
          induction h with
          | nil => exact .nil
          | cons h _ ih => exact .cons (h p k1 k2) ih
        exact key g1.2

end

end Fmr
