import Verif.Props.Loaded
import Verif.Proofs.Frames

/-!
# The index and the candidate rules: C37 and C38
-/

namespace Fmr

/-- `ld` is the result of loading a text that reads as the grammar `main` (before refinement): the index is
built from `main` and the includes, then `main` is refined. -/
def Loaded.From (w : LoadWorld) (ld : Loaded) (main : Grammar) : Prop :=
  GrammarWF w.lex main ∧ buildIndex w.idx { main := main, includes := ld.gram.includes } = .ok ld.index ∧
  ∃ fuel reg reg', refine w.ref "g" fuel reg main = .ok (reg', ld.gram.main)

theorem fromString_from {w : LoadWorld} {inc : String → LoadSt → Out (Option Loaded × LoadSt)} (hw : w.lex.OK)
    (hinc : ∀ p st ld st', inc p st = .ok (some ld, st') → RegWF w.lex ld.gram.main.regexps ∧
      ∀ g ∈ ld.gram.main :: ld.gram.includes, FromText w g) {fuel : Nat}
    {d : List Char} {name dir : String} {st st' : LoadSt} {ld : Loaded}
    (h : fromString w inc fuel d name dir st = .ok (some ld, st')) : ∃ main, ld.From w main := by
  unfold fromString at h
  split at h
  · cases h
  obtain ⟨⟨ld', st1⟩, h1, h2⟩ := Out.bind_eq_ok.mp h
  cases h2
  unfold grammarText at h1
  obtain ⟨⟨⟨gs, st2⟩, ps⟩, h3, h1⟩ := Out.bind_eq_ok.mp h1
  obtain ⟨⟨g, ps'⟩, h4, h1⟩ := Out.bind_eq_ok.mp h1
  obtain ⟨gi, h5, h1⟩ := Out.bind_eq_ok.mp h1
  obtain ⟨⟨reg, g'⟩, h6, h1⟩ := Out.bind_eq_ok.mp h1
  cases h1
  obtain ⟨hρ, hgs⟩ := origin_directives hw hinc _ h3 ⟨KeysNodup.nil, by simp⟩ (by simp)
  obtain ⟨hρ2, hname, hwf⟩ := post_grammarRules hw _ _ _ hρ h4
  exact ⟨g, hwf, h5, _, _, _, h6⟩

/-- every grammar loaded from a string comes from such a text -/
theorem loadString_from {w : LoadWorld} (hw : w.lex.OK) {fuel depth : Nat} {text : List Char} {name : String}
    {reg : Registry} {ld : Loaded} {st : LoadSt} (h : loadString w fuel depth text name reg = .ok (some ld, st)) :
    ∃ main, ld.From w main :=
  fromString_from hw (origin_fromFile hw depth) h

theorem loadFile_from {w : LoadWorld} (hw : w.lex.OK) {fuel depth : Nat} {file : String}
    {reg : Registry} {ld : Loaded} {st : LoadSt} (h : loadFile w fuel depth file reg = .ok (some ld, st)) :
    ∃ main, ld.From w main := by
  unfold loadFile at h
  split at h
  · cases h
  split at h
  · cases h
  exact fromString_from hw (origin_fromFile hw depth) h

/-- the frames survive refinement -/
theorem Loaded.From.frames {w : LoadWorld} {ld : Loaded} {main : Grammar} (h : ld.From w main) :
    ld.gram.main.frames = main.frames := by
  obtain ⟨hwf, -, _, _, _, hr⟩ := h
  exact (C25_structure hwf.unrefined hr).2.2.1

/-! ## C37: index and trie -/

/-- C37, the data: for every grammar and every word `s`,
* `s` is in the trie iff some body of a rule or frame contains the literal `s`,
* the entry of `s` in the index names exactly the bodies that contain the literal `s`,
* `s` has an entry iff it is in the trie,
* the entry of `s` in the rule index names exactly the bodies that contain the reference `<s>`.
"contains `s`" means up to white space around it, which the code trims. -/
theorem C37_index {w : IndexWorld} {g : Gram} {gi : GIndex} (h : buildIndex w g = .ok gi) (s : String) :
    (s ∈ gi.trie ↔ ∃ c k, g.Has w.trim c .terminal k s) ∧
    (∀ k, (∃ i, gi.index.lookup s = some i ∧ k ∈ i.rules) ↔ g.Has w.trim .rule .terminal k s) ∧
    (∀ k, (∃ i, gi.index.lookup s = some i ∧ k ∈ i.frames) ↔ g.Has w.trim .frame .terminal k s) ∧
    ((gi.index.lookup s).isSome ↔ s ∈ gi.trie) ∧
    (∀ k, (∃ i, gi.ruleIndex.lookup s = some i ∧ k ∈ i.rules) ↔ g.Has w.trim .rule .nonterminal k s) ∧
    (∀ k, (∃ i, gi.ruleIndex.lookup s = some i ∧ k ∈ i.frames) ↔ g.Has w.trim .frame .nonterminal k s) ∧
    ((gi.ruleIndex.lookup s).isSome ↔ ∃ c k, g.Has w.trim c .nonterminal k s) := by
  have a := buildIndex_spec h
  have e : ∀ c k, ¬ InIndex [] c k s := by simp [InIndex]
  refine ⟨by simpa using a.trie s, fun k => ?_, fun k => ?_, ?_, fun k => ?_, fun k => ?_,
    by simpa using a.ruleDom s⟩
  · exact (a.index .rule k s).trans (by simp [e])
  · exact (a.index .frame k s).trans (by simp [e])
  · rw [a.dom, a.trie]; simp
  · exact (a.ruleIndex .rule k s).trans (by simp [e])
  · exact (a.ruleIndex .frame k s).trans (by simp [e])

/-- C37 for loaded grammars: the index that comes with a grammar loaded from a string speaks of the rules as they
were read, before literals became rules of their own (`main`; `ld.gram.main` is its refinement). -/
theorem C37_loaded {w : LoadWorld} (hw : w.lex.OK) {fuel depth : Nat} {text : List Char} {name : String}
    {reg : Registry} {ld : Loaded} {st : LoadSt} (h : loadString w fuel depth text name reg = .ok (some ld, st)) :
    ∃ main : Grammar, main.refined = false ∧ main.frames = ld.gram.main.frames ∧
      (∃ fuel reg reg', refine w.ref "g" fuel reg main = .ok (reg', ld.gram.main)) ∧
      ∀ s, (s ∈ ld.index.trie ↔ ∃ c k, Gram.Has ⟨main, ld.gram.includes⟩ w.idx.trim c .terminal k s) ∧
        (∀ k, (∃ i, ld.index.index.lookup s = some i ∧ k ∈ i.rules) ↔
          Gram.Has ⟨main, ld.gram.includes⟩ w.idx.trim .rule .terminal k s) ∧
        (∀ k, (∃ i, ld.index.index.lookup s = some i ∧ k ∈ i.frames) ↔
          Gram.Has ⟨main, ld.gram.includes⟩ w.idx.trim .frame .terminal k s) ∧
        ((ld.index.index.lookup s).isSome ↔ s ∈ ld.index.trie) := by
  obtain ⟨main, hf⟩ := loadString_from hw h
  refine ⟨main, hf.1.unrefined, hf.frames.symm, hf.2.2, fun s => ?_⟩
  have a := C37_index hf.2.1 s
  exact ⟨a.1, a.2.1, a.2.2.1, a.2.2.2.1⟩

/-- building the index fails only if the grammar is already refined or the trie refuses a word -/
theorem foldOut_noErr {σ α : Type} {f : σ → α → Out σ} : ∀ {l : List α},
    (∀ a ∈ l, ∀ s, ∃ s', f s a = .ok s') → ∀ s, ∃ s', foldOut f s l = .ok s'
  | [], _, s => ⟨s, rfl⟩
  | a :: l, h, s => by
    obtain ⟨s1, h1⟩ := h a (by simp) s
    obtain ⟨s2, h2⟩ := foldOut_noErr (l := l) (fun b hb => h b (by simp [hb])) s1
    exact ⟨s2, by rw [foldOut, h1]; exact h2⟩

theorem C37_build {w : IndexWorld} (hu : ∀ t s, w.update t s = true) (g : Gram) (hr : g.main.refined = false) :
    ∃ gi, buildIndex w g = .ok gi := by
  unfold buildIndex
  rw [hr]
  have ht : ∀ c v gi t, ∃ gi', indexTerm w c v gi t = .ok gi' := by
    intro c v gi t
    unfold indexTerm
    simp only [hu, if_true]
    split
    · exact ⟨_, rfl⟩
    · split <;> exact ⟨_, rfl⟩
  have hrs : ∀ c rules gi, ∃ gi', indexRules w c rules gi = .ok gi' := fun c rules gi =>
    foldOut_noErr (fun _ _ gi => foldOut_noErr (fun _ _ gi => foldOut_noErr (fun _ _ gi => ht _ _ _ _) gi) gi) gi
  refine foldOut_noErr (fun ig _ gi => ?_) _
  obtain ⟨g1, h1⟩ := hrs .frame ig.frames gi
  obtain ⟨g2, h2⟩ := hrs .rule ig.rules g1
  exact ⟨g2, by rw [h1]; exact h2⟩

theorem fillFrame_ne_err {g : Grammar} {key : Nat} {new : List Slot} {m : List (RbKey × Frame)} {k : RbKey} :
    fillFrame g key new m k ≠ .err := by
  unfold fillFrame frameBody Out.ofIndex
  intro h
  cases e : g.frames.lookup k.ruleName with
  | none => simp [e, Bind.bind, Out.bind] at h
  | some r =>
    cases e2 : r.body.lookup k.bodyID <;> simp [e, e2, Bind.bind, Out.bind, Pure.pure] at h

theorem fillFrame_ne_div {g : Grammar} {key : Nat} {new : List Slot} {m : List (RbKey × Frame)} {k : RbKey} :
    fillFrame g key new m k ≠ .div := by
  unfold fillFrame frameBody Out.ofIndex
  intro h
  cases e : g.frames.lookup k.ruleName with
  | none => simp [e] at h
  | some r => cases e2 : r.body.lookup k.bodyID <;> simp [e, e2] at h

theorem matchWord_ne_div {w : FrameWorld} {g : Grammar} {gi : GIndex} {st : List (RbKey × Frame) × List String}
    {m : String × List Pos} : matchWord w g gi st m ≠ .div := by
  unfold matchWord
  split
  · simp
  · intro h
    rcases Out.bind_eq_div.mp h with h | ⟨_, _, h⟩
    · exact foldOut_ne (by simp) (fun _ _ _ => fillFrame_ne_div) _ h
    · simp at h

theorem closeRules_ne_err {w : FrameWorld} {gi : GIndex} : ∀ (fuel n : Nat) (work rules : List String),
    closeRules w gi fuel n work rules ≠ .err
  | 0, _, _, _ => by simp [closeRules]
  | fuel + 1, n, [], rules => by simp [closeRules]
  | fuel + 1, n, r :: work, rules => by
    simp only [closeRules]
    split
    · exact closeRules_ne_err fuel _ _ _
    · exact closeRules_ne_err fuel _ _ _

/-- C37, the error: with the index built for the grammar, looking for candidates fails only when `MultiMatch`
fails; "in trie but not in index" never happens. -/
theorem C37_no_error {iw : IndexWorld} {g0 : Gram} {gi : GIndex} (h : buildIndex iw g0 = .ok gi) {w : FrameWorld}
    (hw : w.OK) (g : Grammar) (fuel : Nat) (text : Bytes) :
    getCandidates w g gi fuel text = .err ↔ w.multiMatch gi.trie text = none := by
  unfold getCandidates
  constructor
  · intro hc
    rcases Out.bind_eq_err.mp hc with hc | ⟨ms, hms, hc⟩
    · cases e : w.multiMatch gi.trie text with
      | none => rfl
      | some ms => rw [e] at hc; simp [Out.ofErr] at hc
    · rw [Out.ofErr_eq_ok] at hms
      rcases Out.bind_eq_err.mp hc with hc | ⟨st, _, hc⟩
      · refine absurd hc (foldOut_ne (by simp) (fun m hm s hc => ?_) _)
        unfold matchWord at hc
        have hd := ((C37_index h m.1).2.2.2.1).2 (hw.keys _ _ _ hms m hm).1
        split at hc
        · next e => rw [e] at hd; simp at hd
        · rcases Out.bind_eq_err.mp hc with hc | ⟨b, _, hc⟩
          · exact foldOut_ne (by simp) (fun _ _ _ => fillFrame_ne_err) _ hc
          · simp at hc
      · rcases Out.bind_eq_err.mp hc with hc | ⟨b, _, hc⟩
        · exact absurd hc (closeRules_ne_err _ _ _ _)
        · simp at hc
  · intro e
    rw [e]
    rfl

/-! ## C38: candidate rules -/

theorem indexRefers_iff {w : IndexWorld} {g : Gram} {gi : GIndex} (h : buildIndex w g = .ok gi) (A B : String) :
    IndexRefers gi A B ↔ g.Refers w.trim A B := by
  unfold IndexRefers Gram.Refers
  constructor
  · rintro ⟨v, hv, k, hk, rfl⟩
    exact ⟨k, rfl, ((C37_index h B).2.2.2.2.1 k).1 ⟨v, hv, hk⟩⟩
  · rintro ⟨k, rfl, hk⟩
    obtain ⟨v, hv, hk⟩ := ((C37_index h B).2.2.2.2.1 k).2 hk
    exact ⟨v, hv, k, hk, rfl⟩

theorem above_congr {R S : String → String → Prop} (h : ∀ A B, R A B ↔ S A B) {A B : String} :
    Above R A B ↔ Above S A B := by
  have : R = S := funext fun A => funext fun B => propext (h A B)
  rw [this]

/-- what `getCandidates` finds: the words, the frames that have slots for them, and the start rules -/
theorem getCandidates_spec {iw : IndexWorld} {g0 : Gram} {gi : GIndex} (h : buildIndex iw g0 = .ok gi)
    {w : FrameWorld} (hw : w.OK) {g : Grammar} {fuel : Nat} {text : Bytes} {frames : List (RbKey × Frame)}
    {starts : List String} (hc : getCandidates w g gi fuel text = .ok (frames, starts)) :
    ∃ ms, w.multiMatch gi.trie text = some ms ∧
      Fills g [] frames (fun k => ∃ m ∈ ms, InIndex gi.index .frame k m.1)
        (fun k κ s => ∃ m ∈ ms, WordSlots w gi m k κ s) ∧
      starts.Nodup ∧
      ∀ A, A ∈ starts ↔ ∃ B, (∃ m ∈ ms, g0.RuleHas iw.trim B m.1) ∧ Above (g0.Refers iw.trim) A B := by
  obtain ⟨ms, st, rules, h1, h2, h3, h4⟩ := getCandidates_ok hc
  cases h4
  obtain ⟨f1, f2, f3⟩ := matchWords_spec hw.ordKeys h2
  obtain ⟨c1, c2⟩ := closeRules_spec hw.ordKeys st.2 _ _ _ _ _ h3 (f3 List.nodup_nil) (fun _ h => h)
    (fun A hA => (hw.ordWork _).mem_iff.1 hA) (fun A hA => ⟨A, hA, .refl⟩)
    (fun A B hB _ => .inr ((hw.ordWork _).mem_iff.2 hB))
  refine ⟨ms, h1, f1, ((hw.ordStarts _).nodup_iff).2 c1, fun A => ?_⟩
  rw [(hw.ordStarts _).mem_iff, c2]
  simp only [above_congr (indexRefers_iff h), f2, List.not_mem_nil, false_or]
  constructor
  · rintro ⟨B, ⟨m, hm, k, hk, rfl⟩, hA⟩
    exact ⟨_, ⟨m, hm, k, rfl, ((C37_index h m.1).2.1 k).1 hk⟩, hA⟩
  · rintro ⟨B, ⟨m, hm, k, rfl, hk⟩, hA⟩
    exact ⟨_, ⟨m, hm, k, ((C37_index h m.1).2.1 k).2 hk, rfl⟩, hA⟩

/-- C38 in full: the start rules are those from which a rule with a literal found in the text is reachable
through references, `(list<B>)` included. -/
def C38_statement : Prop :=
  ∀ (iw : IndexWorld) (g0 : Gram) (gi : GIndex), buildIndex iw g0 = .ok gi →
  ∀ (w : FrameWorld), w.OK → ∀ (g : Grammar) (fuel : Nat) (text : Bytes) (frames : List (RbKey × Frame))
    (starts : List String), getCandidates w g gi fuel text = .ok (frames, starts) →
  ∃ ms, w.multiMatch gi.trie text = some ms ∧ starts.Nodup ∧
    ∀ A, A ∈ starts ↔ ∃ B, (∃ m ∈ ms, g0.RuleHas iw.trim B m.1) ∧ Above (g0.RefersAny iw.trim) A B

/-- C38 with plain references only: `(list<B>)` is not in the index. -/
theorem C38_partial {iw : IndexWorld} {g0 : Gram} {gi : GIndex} (h : buildIndex iw g0 = .ok gi)
    {w : FrameWorld} (hw : w.OK) {g : Grammar} {fuel : Nat} {text : Bytes} {frames : List (RbKey × Frame)}
    {starts : List String} (hc : getCandidates w g gi fuel text = .ok (frames, starts)) :
    ∃ ms, w.multiMatch gi.trie text = some ms ∧ starts.Nodup ∧
      ∀ A, A ∈ starts ↔ ∃ B, (∃ m ∈ ms, g0.RuleHas iw.trim B m.1) ∧ Above (g0.Refers iw.trim) A B := by
  obtain ⟨ms, h1, -, h2, h3⟩ := getCandidates_spec h hw hc
  exact ⟨ms, h1, h2, h3⟩

/-- the full statement for grammars without list references -/
theorem C38_no_lists {iw : IndexWorld} {g0 : Gram} {gi : GIndex} (h : buildIndex iw g0 = .ok gi)
    (hl : ∀ k rb, g0.Body .rule k rb → ∀ t ∈ rb.terms, t.type ≠ .list)
    {w : FrameWorld} (hw : w.OK) {g : Grammar} {fuel : Nat} {text : Bytes} {frames : List (RbKey × Frame)}
    {starts : List String} (hc : getCandidates w g gi fuel text = .ok (frames, starts)) :
    ∃ ms, w.multiMatch gi.trie text = some ms ∧ starts.Nodup ∧
      ∀ A, A ∈ starts ↔ ∃ B, (∃ m ∈ ms, g0.RuleHas iw.trim B m.1) ∧ Above (g0.RefersAny iw.trim) A B := by
  obtain ⟨ms, h1, h2, h3⟩ := C38_partial h hw hc
  refine ⟨ms, h1, h2, fun A => ?_⟩
  have e : ∀ A B, g0.RefersAny iw.trim A B ↔ g0.Refers iw.trim A B := by
    intro A B
    refine ⟨fun o => o.elim id ?_, .inl⟩
    rintro ⟨k, rfl, -, rb, hb, t, ht, htt, -⟩
    exact absurd htt (hl k rb hb t ht)
  simp only [above_congr e]
  exact h3 A

/-- C38, termination: with enough fuel the search for candidates ends, for every index, cyclic or not. -/
theorem C38_terminates {w : FrameWorld} (hw : w.OK) (g : Grammar) (gi : GIndex) (text : Bytes) :
    ∃ bound, ∀ fuel, bound ≤ fuel → getCandidates w g gi fuel text ≠ .div := by
  unfold getCandidates
  cases h1 : w.multiMatch gi.trie text with
  | none => exact ⟨0, fun fuel _ => by simp [Out.ofErr, Bind.bind, Out.bind]⟩
  | some ms =>
    simp only [Out.ofErr, Out.bind_ok]
    cases h2 : foldOut (matchWord w g gi) ([], []) ms with
    | err => exact ⟨0, fun fuel _ => by simp [Bind.bind, Out.bind]⟩
    | panic => exact ⟨0, fun fuel _ => by simp [Bind.bind, Out.bind]⟩
    | div => exact absurd h2 (foldOut_ne (by simp) (fun _ _ _ => matchWord_ne_div) _)
    | ok st =>
      refine ⟨(w.ordWork st.2).length + notYet gi.names st.2 + 1, fun fuel hf => ?_⟩
      obtain ⟨res, hr⟩ := closeRules_total hw.ordKeys (gi := gi) fuel 0 (w.ordWork st.2) st.2 (by omega)
      simp only [Out.bind_ok, hr]
      simp

/-! ## Witnesses -/

/-- the bytes of an ASCII string -/
def asciiBytes (s : String) : Bytes := s.toList.map (fun c => UInt8.ofNat c.toNat)

/-- the places where `key` occurs -/
def occurrences (key : Bytes) : Nat → Bytes → List Pos
  | _, [] => []
  | i, b :: text =>
    (if key.isPrefixOf (b :: text) then [⟨i, i + key.length⟩] else []) ++ occurrences key (i+1) text

/-- a search for all keys -/
def findWords (trie : List String) (text : Bytes) : List (String × List Pos) :=
  ((trie.foldl setAdd []).map (fun s => (s, occurrences (asciiBytes s) 0 text))).filter (fun m => !m.2.isEmpty)

/-- a number for the type of a term, and for other terms than plain ones -/
def termKind (t : Term) : Nat :=
  match t.type, t.meta with
  | .terminal, .nil => 1
  | .nonterminal, .nil => 2
  | .any, _ => 3
  | .list, _ => 4
  | _, _ => 5

/-- a world of frames where every iteration is in insertion order -/
def wFrames : FrameWorld :=
  { multiMatch := fun trie text => some (findWords trie text)
    termKey := fun t => (t.value.toList.map Char.toNat).foldl (fun n c => 1114112 * n + c) (termKind t)
    ordKeys := fun _ l => l, ordWork := id, ordStarts := id, ordFrames := id }

theorem foldl_setAdd_mem {l : List String} : ∀ {acc : List String} {s : String},
    s ∈ l.foldl setAdd acc ↔ s ∈ acc ∨ s ∈ l := by
  induction l with
  | nil => simp
  | cons a l ih => intro acc s; rw [List.foldl_cons, ih, mem_setAdd, or_assoc, List.mem_cons]

theorem foldl_setAdd_nodup {l : List String} : ∀ {acc : List String}, acc.Nodup → (l.foldl setAdd acc).Nodup := by
  induction l with
  | nil => exact id
  | cons a l ih => intro acc h; exact ih (setAdd_nodup h a)

theorem wFrames_ok : wFrames.OK := by
  constructor
  · intro trie text ms h m hm
    cases h
    obtain ⟨h1, h2⟩ := List.mem_filter.1 hm
    obtain ⟨s, hs, rfl⟩ := List.mem_map.1 h1
    refine ⟨?_, by simpa using h2⟩
    simpa using foldl_setAdd_mem.1 hs
  · intro trie text ms h
    cases h
    refine List.Nodup.sublist (List.filter_sublist.map _) ?_
    rw [List.map_map]
    simpa [Function.comp_def] using foldl_setAdd_nodup (l := trie) List.nodup_nil
  all_goals intros; exact List.Perm.refl _

def wIndex : IndexWorld := { trim := id, update := fun _ _ => true }

/-- `<s> = (list<y>{1,2}); <y> = "a"` -/
def gListRef : Gram :=
  { main := { name := "g", rules := [rl "s" [[⟨"y", .list, .range 1 2⟩]], rl "y" [[tt "a"]]] }, includes := [] }

def giListRef : GIndex :=
  { trie := ["a"], index := [("a", { rules := [⟨"y", 0⟩] })], ruleIndex := [] }

theorem giListRef_ok : buildIndex wIndex gListRef = .ok giListRef := rfl

theorem listRef_cands : getCandidates wFrames gListRef.main giListRef 9 (asciiBytes "a") = .ok ([], ["y"]) := rfl

/-- False: on `a` only `y` is tried, although `a` is also derived from `s`. -/
theorem C38_false : ¬ C38_statement := by
  intro h
  obtain ⟨ms, h1, -, h2⟩ := h _ _ _ giListRef_ok _ wFrames_ok _ _ _ _ _ listRef_cands
  have h3 : ms = [("a", [⟨0, 1⟩])] := by
    have : wFrames.multiMatch giListRef.trie (asciiBytes "a") = some [("a", [⟨0, 1⟩])] := rfl
    rw [this] at h1
    cases h1
    rfl
  subst h3
  have hs : "s" ∈ ["y"] := (h2 "s").2 ⟨"y", ⟨_, List.mem_singleton_self _, ⟨"y", 0⟩, rfl, by decide, _,
    ⟨gListRef.main, by simp, rl "y" [[tt "a"]], by simp [gListRef, Grammar.defs], rfl, List.mem_singleton_self _⟩,
    tt "a", by simp, rfl, rfl⟩,
    .step (.inr ⟨⟨"s", 0⟩, rfl, by decide, _, ⟨gListRef.main, by simp, rl "s" [[⟨"y", .list, .range 1 2⟩]],
      by simp [gListRef, Grammar.defs], rfl, List.mem_singleton_self _⟩, _, List.mem_singleton_self _, rfl, rfl⟩) .refl⟩
  simp at hs

/-- `<s> = <t> "b" | "c"; <t> = <s> | "a"; <u> = <v>; <v> = "d"; [f] = <s> "a"`, included: `<x> = <s>` -/
def gCyclic : Gram :=
  { main := { name := "g", rules := [rl "s" [[nt "t", tt "b"], [tt "c"]], rl "t" [[nt "s"], [tt "a"]],
      rl "u" [[nt "v"]], rl "v" [[tt "d"]]], frames := [rl "f" [[nt "s", tt "a"]]] },
    includes := [{ name := "i", rules := [rl "x" [[nt "s"]]] }] }

/-- the rules above a cycle, also in an include, and the frame -/
example : ∃ gi, buildIndex wIndex gCyclic = .ok gi ∧
    getCandidates wFrames gCyclic.main gi 9 (asciiBytes "a") =
      .ok ([(⟨"f", 0⟩, { slots := [(1114209, [⟨⟨0, 1⟩, []⟩])], complete := false })], ["t", "s", "x"]) ∧
    gi.trie = ["a", "b", "c", "d"] := ⟨_, rfl, rfl, rfl⟩

/-- the error exists for an index that does not belong to the trie -/
example : getCandidates wFrames gCyclic.main { trie := ["a"] } 9 (asciiBytes "a") = .err := rfl

/-- a loaded grammar that satisfies `Loaded.From` -/
example : ∃ ld st, loadString (noFiles asciiLex) 40 1 "<a>=\"x\";\n[f]=<a>;\n".toList "g" [] = .ok (some ld, st) ∧
    (∃ main, ld.From (noFiles asciiLex) main) ∧ ld.index.trie = ["x"] ∧
    ld.gram.main.frames.map (·.1) = ["f"] := by
  have hc : (match loadString (noFiles asciiLex) 40 1 "<a>=\"x\";\n[f]=<a>;\n".toList "g" [] with
      | .ok (some ld, _) => decide (ld.index.trie = ["x"]) && decide (ld.gram.main.frames.map (·.1) = ["f"])
      | _ => false) = true := by decide +kernel
  cases e : loadString (noFiles asciiLex) 40 1 "<a>=\"x\";\n[f]=<a>;\n".toList "g" [] with
  | ok x =>
    obtain ⟨o, st⟩ := x
    rw [e] at hc
    cases o with
    | none => simp at hc
    | some ld =>
      simp only [Bool.and_eq_true, decide_eq_true_eq] at hc
      exact ⟨ld, st, rfl, loadString_from asciiLex_ok e, hc.1, hc.2⟩
  | err => rw [e] at hc; simp at hc
  | panic => rw [e] at hc; simp at hc
  | div => rw [e] at hc; simp at hc

end Fmr
