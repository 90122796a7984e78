import Verif.Lemmas.EngTidy
import Verif.Spec.Visible

/-! The primitive changes of the state during a parse, and the methods that consist of such changes. -/
namespace JH.Eng

/-- The plan of a parse is a compiled policy or the raw plan. Like the two policies that the library compiles, the policy allows no element with state
attributes, and not `selectedcontent`. -/
class Ok (C : Cfg) : Prop where
  out : (∃ sc, C.plan = rawPlan C.E.U sc) ∨
    ∃ p sc, C.plan = compilePlan C.E.U p sc ∧ ∀ x ∈ [c%"input", c%"option", c%"selectedcontent"], x ∉ p.allowedTags

/-- The attribute is read from a start tag with this name (an `image` makes an `img`). -/
def AttrFrom (C : Cfg) (name : Str) (kv : Str × Option Str) : Prop :=
  ∃ s, (('<' :: s) <:+ C.html ∧ ∃ c r, s = c :: r ∧ isAsciiLetter c = true) ∧
    (name = generalName C (splitName s).1 ∨ (name = c%"img" ∧ generalName C (splitName s).1 = c%"image")) ∧ kv ∈ rawAttrs C (allAttrs C (splitName s).2).attrs

/-- In a raw parse, attributes that are read from start tags with this name. -/
class Given (C : Cfg) (name : Str) (attrs : Attrs) : Prop where
  out : C.plan.rawMode = true → ∀ kv ∈ attrs, AttrFrom C name kv

instance (C : Cfg) (name : Str) : Given C name [] := ⟨fun _ _ h => absurd h (by simp)⟩

/-- In a safe parse, attributes that an allowed element may have: each is allowed, with a value that the checks of the policy returned. In a raw parse,
attributes that are read from start tags with this name. -/
def AttrsOk (C : Cfg) (name : Str) (attrs : Attrs) : Prop :=
  (C.plan.rawMode = true ∧ ∀ kv ∈ attrs, AttrFrom C name kv) ∨ (C.plan.rawMode = false ∧ (name ∉ C.plan.allowedTags ∨
    ∃ a, C.plan.action name = some a ∧ ∀ kv ∈ attrs, kv.1 ∈ a.allowedAttrs ∧ ∃ raw v, attrOut C a kv.1 raw = some v ∧ kv.2 = some v))

/-- The part of the state that the invariants speak about. -/
def St.core (s : St) : List ENode × Nat × Option Nat × Option Nat × Nat × Option Nat × List Nat × List (Option FEntry) × List Nat × List Nat × Bool :=
  (s.heap, s.doc, s.html, s.head, s.body, s.ctxNode, s.stack, s.fmt, s.toDrop, s.toUnwrap, s.hasSelected)

/-- Is the new element `n` one that the plan keeps? -/
def Kept (C : Cfg) (n : ENode) : Prop := C.plan.rawMode = true ∨ (n.ns = some c%"html" ∧ n.name ∈ C.plan.allowedTags)

/-- The attributes of a new HTML element: as above or, in a raw parse, those of an entry for a formatting element. -/
def NewAttrs (C : Cfg) (f : List (Option FEntry)) (name : Str) (attrs : Attrs) : Prop :=
  AttrsOk C name attrs ∨ ∃ e, some e ∈ f ∧ e.name = name ∧ e.attrs = attrs

/-- A new element and, for a template, its content. `i` is its number. -/
inductive NewEl (C : Cfg) (f : List (Option FEntry)) (i : Nat) : ENode → List ENode → Prop
  | plain (name : Str) (attrs : Attrs) (ns : Str) : ns ≠ c%"justhtml-parser-only" → (ns = c%"html" → NewAttrs C f name attrs) →
      NewEl C f i (elementNode name attrs (some ns)) []
  | template (attrs : Attrs) : NewAttrs C f c%"template" attrs →
      NewEl C f i { kind := .template, name := c%"template", ns := some c%"html", attrs := attrs, content := some (i + 1) }
        [{ kind := .fragment, name := c%"#document-fragment", parent := some i }]

/-- A new node that is not an element. -/
def LeafOk (C : Cfg) (n : ENode) : Prop :=
  n.children = [] ∧ n.parent = none ∧ n.content = none ∧ n.ns = none ∧
  (n.kind = .text ∨ ((n.kind = .comment ∨ n.kind = .pi) ∧ C.plan.dropComments = false) ∨ (n.kind = .plain ∧ C.plan.dropDoctype = false))

/-- The name of a start tag: `s` follows a `<` of the input, begins with a letter, and the name is read from it. -/
def Occurs (C : Cfg) (name : Str) : Prop :=
  ∃ s, (('<' :: s) <:+ C.html ∧ ∃ c r, s = c :: r ∧ isAsciiLetter c = true) ∧ (name = compiledName C (splitName s).1 ∨ name = generalName C (splitName s).1)

/-- A name that the parser may give an element: one that it inserts by itself, or one of a start tag. -/
class Named (C : Cfg) (name : Str) : Prop where
  out : name ∈ [c%"p", c%"br", c%"tbody", c%"tr", c%"colgroup"] ∨ Occurs C name ∨ (name = c%"img" ∧ Occurs C c%"image")

instance (C : Cfg) : Named C c%"p" := ⟨.inl (by simp)⟩
instance (C : Cfg) : Named C c%"br" := ⟨.inl (by simp)⟩
instance (C : Cfg) : Named C c%"tbody" := ⟨.inl (by simp)⟩
instance (C : Cfg) : Named C c%"tr" := ⟨.inl (by simp)⟩
instance (C : Cfg) : Named C c%"colgroup" := ⟨.inl (by simp)⟩

/-- A name of a start tag or of a formatting element. -/
def NameIn (C : Cfg) (s : St) (y : Str) : Prop := Named C y ∨ ∃ e, some e ∈ s.fmt ∧ e.name = y

/-- Where the name and the namespace of a new element come from. -/
def Src (C : Cfg) (s : St) (n : ENode) : Prop :=
  ∃ y ns, NameIn C s y ∧ n.name = elName ns y ∧ n.ns = some ns ∧ (ns = nsOfStart y ∨ ns = c%"html" ∨ ∃ i, i < s.heap.length ∧ (s.n i).ns = some ns)

/-- The only place where text may keep invisible characters: `noframes` in a frameset of foreign content. -/
def Excuse (C : Cfg) : Prop := Named C c%"noframes"

/-- Text without invisible characters, if the policy removes them. -/
class Vis (C : Cfg) (t : Str) : Prop where
  out : C.plan.stripInvisible = true → Excuse C ∨ Spec.ShowsAll t

/-- A new text has no invisible characters. -/
def TextOk (C : Cfg) (n : ENode) : Prop := n.kind = .text → Vis C n.data

/-- One primitive change. -/
inductive Step (C : Cfg) : St → St → Prop
  | ctl {s s'} : s'.core = s.core → Step C s s'
  | stack {s} (l : List Nat) : (∀ i, l.count i ≤ s.stack.count i ∨ i = s.doc ∨ i = s.html.getD s.doc ∨ i = s.head.getD s.doc ∨ i = s.body ∨
      (i < s.heap.length ∧ (s.n i).ns ≠ poNs)) → Step C s { s with stack := l }
  | fmt {s} (l : List (Option FEntry)) : (∀ e, some e ∈ l → ∃ e', some e' ∈ s.fmt ∧ e.name = e'.name ∧ e.attrs = e'.attrs) →
      Step C s { s with fmt := l }
  | entry {s} (e : FEntry) : e.node < s.heap.length → e.attrs = (s.n e.node).attrs → ((s.n e.node).ns = some c%"html" → (s.n e.node).name = e.name) →
      (s.n e.node).kind ≠ .text → Named C e.name → (s.n e.node).ns ≠ poNs ∧ (s.n e.node).ns ≠ none → Step C s { s with fmt := s.fmt ++ [some e] }
  | garbage {s} (n : ENode) : LeafOk C n → TextOk C n → Step C s (s.add n)
  | data {s} (i : Nat) (f : Str → Str) : (s.n i).kind = .text → (∀ t, Vis C t → Vis C (f t)) →
      Step C s (s.upd i fun n => { n with data := f n.data })
  | leaf {s} (n : ENode) (p pos : Nat) : LeafOk C n → TextOk C n → Step C s ((s.add n).link p pos s.heap.length)
  | elem {s} (n : ENode) (l : List ENode) (p pos : Nat) (u d : Bool) : NewEl C s.fmt s.heap.length n l → (u = true ∨ Kept C n) → (d = true → u = true) →
      Src C s n →
      Step C s { ({ s with heap := s.heap ++ n :: l } : St).link p pos s.heap.length with
        toUnwrap := s.toUnwrap ++ if u then [s.heap.length] else []
        toDrop := s.toDrop ++ if d then [s.heap.length] else []
        hasSelected := s.hasSelected || n.name = c%"selectedcontent" }
  | clone {s} (e : FEntry) (u : Bool) : some e ∈ s.fmt → (u = true ∨ C.plan.rawMode = true ∨ e.name ∈ C.plan.allowedTags) →
      Step C s { s.add (elementNode e.name e.attrs (some c%"html")) with toUnwrap := s.toUnwrap ++ if u then [s.heap.length] else [] }
  | poNew {s} : Named C c%"template" → Step C s { s.add (elementNode c%"template" [] poNs) with stack := s.stack ++ [s.heap.length] }
  | move {s} (c p pos : Nat) : c < s.heap.length → (s.n c).ns ≠ poNs → Step C s ((s.detach c).link p pos c)
  | wrap {s} (e : FEntry) (u : Bool) (b : Nat) : some e ∈ s.fmt → (u = true ∨ C.plan.rawMode = true ∨ e.name ∈ C.plan.allowedTags) →
      b < s.heap.length → (s.n b).ns ≠ poNs →
      Step C s ((({ s.add (elementNode e.name e.attrs (some c%"html")) with toUnwrap := s.toUnwrap ++ if u then [s.heap.length] else [] } : St).moveChildren
        b s.heap.length).appendMoved b s.heap.length)
  | shrink {s} (p : Nat) (l : List Nat) : l.Sublist (s.n p).children → Step C s (s.upd p fun n => { n with children := l })
  | clearBody {s} : Step C s s.clearBody
  | dropBody {s} (h : Nat) : s.html = some h →
      Step C s ((s.upd h fun n => { n with children := n.children.erase s.body }).upd s.body fun n => { n with parent := none })
  | closePo {s} (i node parent : Nat) : s.stack[i]? = some node → (s.n node).ns = poNs →
      Step C s ({ ((s.n node).children.foldl (fun s c => s.append parent c) s) with stack := s.stack.take i })
  | attrs {s} (i : Nat) (as : Attrs) :
      (C.fragment = false ∧ ((s.html = some i ∧ AttrsOk C c%"html" as) ∨ (s.head = some i ∧ AttrsOk C c%"head" as) ∨ (s.body = i ∧ AttrsOk C c%"body" as))) ∨
        (C.plan.rawMode = true ∧ s.body = i ∧ (s.n i).kind = .element ∧ AttrsOk C c%"body" as) →
      Step C s (s.upd i fun n => { n with attrs := as.foldl (fun acc p => if acc.any (fun x => x.1 = p.1) then acc else acc ++ [p]) n.attrs })

/-- Some primitive changes. -/
inductive Chain (C : Cfg) (s : St) : St → Prop
  | refl : Chain C s s
  | tail {t u} : Chain C s t → Step C t u → Chain C s u

theorem Chain.trans {C : Cfg} {s t u : St} (h : Chain C s t) (k : Chain C t u) : Chain C s u := by
  induction k with
  | refl => exact h
  | tail _ st ih => exact .tail ih st

theorem Chain.one {C : Cfg} {s t : St} (h : Step C s t) : Chain C s t := .tail .refl h

/-- Some primitive changes, after which the nodes still form a tree. -/
structure Steps (C : Cfg) (s t : St) : Prop where
  chain : Chain C s t
  tidy : Tidy s → Tidy t

theorem Steps.refl {C : Cfg} {s : St} : Steps C s s := ⟨.refl, id⟩

theorem Steps.trans {C : Cfg} {s t u : St} (h : Steps C s t) (k : Steps C t u) : Steps C s u := ⟨h.chain.trans k.chain, fun x => k.tidy (h.tidy x)⟩

theorem Steps.one {C : Cfg} {s t : St} (h : Step C s t) (k : Tidy s → Tidy t) : Steps C s t := ⟨.one h, k⟩

theorem Steps.tail {C : Cfg} {s t u : St} (h : Steps C s t) (k : Step C t u) (l : Tidy t → Tidy u) : Steps C s u := h.trans (.one k l)

theorem Tidy.ctl {s t : St} (h : Tidy s) (e : t.core = s.core) : Tidy t := by
  simp only [St.core, Prod.mk.injEq] at e
  obtain ⟨h1, h2, h3, h4, h5, h6, h7, h8, _⟩ := e
  exact h.core (by simp only [St.fixed, h1, h2, h3, h4, h5, h6, h7, h8])

theorem Steps.ctl {C : Cfg} {s t : St} (e : t.core = s.core) : Steps C s t := .one (.ctl e) fun h => h.ctl e

/-- A method all of whose executions consist of primitive changes. -/
class Does {α : Type} (C : Cfg) (m : EM α) : Prop where
  out : ∀ s, Steps C s (m C s).2

section
variable {C : Cfg} {α β : Type}

instance Does.pure (a : α) : Does C (Pure.pure a : EM α) := ⟨fun _ => .refl⟩

theorem bind_eq (m : EM α) (f : α → EM β) (C : Cfg) (s : St) : (m >>= f) C s = f (m C s).1 C (m C s).2 := rfl

instance (priority := low) Does.bind (m : EM α) (f : α → EM β) [h : Does C m] [k : ∀ a, Does C (f a)] : Does C (m >>= f) :=
  ⟨fun s => by rw [bind_eq]; exact (h.out s).trans ((k _).out _)⟩

instance Does.bindCfg (f : Cfg → EM β) [k : Does C (f C)] : Does C (cfg >>= f) := ⟨fun s => k.out s⟩

instance Does.q (f : Cfg → St → α) : Does C (q f) := ⟨fun _ => .refl⟩
instance Does.getS : Does C getS := ⟨fun _ => .refl⟩
instance Does.cfg : Does C cfg := ⟨fun _ => .refl⟩

/-- A query whose answer is used. -/
theorem Does.bindQ {g : Cfg → St → α} {f : α → EM β} (h : ∀ s, Steps C s (f (g C s) C s).2) : Does C (Eng.q g >>= f) := ⟨h⟩

theorem Does.bindS {f : St → EM β} (h : ∀ s, Steps C s (f s C s).2) : Does C (Eng.getS >>= f) := ⟨h⟩

theorem Does.whQ' {c : Cfg → St → Bool} {m : EM Unit} (h : ∀ s, c C s = true → Steps C s (m C s).2) : Does C (whQ c m) := by
  refine ⟨fun s => ?_⟩
  unfold whQ
  by_cases hc : c C s = true
  · rw [if_pos hc]; exact h s hc
  · rw [if_neg hc]; exact .refl

instance Does.whQ (c : Cfg → St → Bool) (m : EM Unit) [h : Does C m] : Does C (Eng.whQ c m) := Does.whQ' fun s _ => h.out s

theorem Does.iteQ' {c : Cfg → St → Bool} {m₁ m₂ : EM α} (h : ∀ s, c C s = true → Steps C s (m₁ C s).2)
    (k : ∀ s, c C s = false → Steps C s (m₂ C s).2) : Does C (iteQ c m₁ m₂) := by
  refine ⟨fun s => ?_⟩
  unfold iteQ
  by_cases hc : c C s = true
  · rw [if_pos hc]; exact h s hc
  · rw [if_neg hc]; exact k s (by simpa using hc)

instance Does.iteQ (c : Cfg → St → Bool) (m₁ m₂ : EM α) [h : Does C m₁] [k : Does C m₂] : Does C (Eng.iteQ c m₁ m₂) :=
  Does.iteQ' (fun s _ => h.out s) fun s _ => k.out s

instance Does.ite (c : Prop) [Decidable c] (m₁ m₂ : EM α) [h : Does C m₁] [k : Does C m₂] : Does C (if c then m₁ else m₂) := by
  split
  · exact h
  · exact k

theorem Does.modS {f : St → St} (h : ∀ s, Steps C s (f s)) : Does C (modS f) := ⟨h⟩

theorem Does.ctl {f : St → St} (h : ∀ s, (f s).core = s.core) : Does C (Eng.modS f) := ⟨fun s => .ctl (h s)⟩

end

/-- Decompose a method into parts for which there is an instance. -/
macro "does" : tactic => `(tactic| repeat' (first
  | infer_instance
  | intro _
  | (refine @Does.bind _ _ _ _ _ ?_ ?_)
  | (refine @Does.iteQ _ _ _ _ _ ?_ ?_)
  | (refine @Does.whQ _ _ _ ?_)
  | (apply Does.ctl; intro _; (first | rfl | (split <;> rfl)))
  | split
  | dsimp only))

section
variable {C : Cfg}

instance : Does C markInitial := by unfold markInitial; does
instance (m : TMode) : Does C (setTMode m) := by unfold setTMode; does
instance (m : After) : Does C (setAfter m) := by unfold setAfter; does
instance (b : Bool) : Does C (setColgroup b) := by unfold setColgroup; does
instance (b : Bool) : Does C (setNoscript b) := by unfold setNoscript; does
instance : Does C markDirty := by unfold markDirty; does
instance : Does C refreshDirty := by unfold refreshDirty; does

/-- A stack of nodes that were on it. -/
theorem Steps.sublist {s : St} {l : List Nat} (h : l.Sublist s.stack) : Steps C s { s with stack := l } :=
  .one (.stack l fun i => .inl (h.count_le i)) fun k => k.stackSub h

theorem Does.sub {f : St → List Nat} (h : ∀ s : St, (f s).Sublist s.stack) : Does C (Eng.modS fun s => { s with stack := f s }) := ⟨fun s => Steps.sublist (h s)⟩

theorem mem_of_count {l l' : List Nat} (h : ∀ i ∈ l, i ∈ l') (i : Nat) : l.count i ≤ 0 ∨ i ∈ l' := by
  by_cases hi : i ∈ l
  · exact .inr (h i hi)
  · exact .inl (by rw [List.count_eq_zero_of_not_mem hi]; exact Nat.le_refl 0)

instance : Does C stackToBody := by
  refine ⟨fun s => .one (.stack _ fun i => ?_) fun k => k.reset (l := [s.doc, s.html.getD s.doc, s.body]) fun i hi => by simp [Fixed] at hi ⊢; grind⟩
  rcases mem_of_count (l := [s.doc, s.html.getD s.doc, s.body]) (l' := [s.doc, s.html.getD s.doc, s.body]) (fun _ h => h) i with h | h
  · exact .inl (Nat.le_trans h (Nat.zero_le _))
  · simp only [List.mem_cons, List.not_mem_nil, or_false] at h
    rcases h with h | h | h
    · exact .inr (.inl h)
    · exact .inr (.inr (.inl h))
    · exact .inr (.inr (.inr (.inr (.inl h))))

instance : Does C stackToHtml := by
  refine ⟨fun s => .one (.stack _ fun i => ?_) fun k => k.reset (l := [s.doc, s.html.getD s.doc]) fun i hi => by simp [Fixed] at hi ⊢; grind⟩
  rcases mem_of_count (l := [s.doc, s.html.getD s.doc]) (l' := [s.doc, s.html.getD s.doc]) (fun _ h => h) i with h | h
  · exact .inl (Nat.le_trans h (Nat.zero_le _))
  · simp only [List.mem_cons, List.not_mem_nil, or_false] at h
    rcases h with h | h
    · exact .inr (.inl h)
    · exact .inr (.inr (.inl h))

instance : Does C stackToHead := by
  refine ⟨fun s => .one (.stack _ fun i => ?_) fun k => k.reset (l := [s.doc, s.html.getD s.doc, s.head.getD s.doc]) fun i hi => by simp [Fixed] at hi ⊢; grind⟩
  rcases mem_of_count (l := [s.doc, s.html.getD s.doc, s.head.getD s.doc]) (l' := [s.doc, s.html.getD s.doc, s.head.getD s.doc]) (fun _ h => h) i with h | h
  · exact .inl (Nat.le_trans h (Nat.zero_le _))
  · simp only [List.mem_cons, List.not_mem_nil, or_false] at h
    rcases h with h | h | h
    · exact .inr (.inl h)
    · exact .inr (.inr (.inl h))
    · exact .inr (.inr (.inr (.inl h)))

instance : Does C leaveNoscript := by unfold leaveNoscript; does
instance : Does C finishReentry := by unfold finishReentry; does
instance : Does C toBody := by unfold toBody; does

instance : Does C (modS St.pop) := ⟨fun s => Steps.sublist (List.dropLast_sublist _)⟩
instance (i : Nat) : Does C (modS fun s => s.cut i) := ⟨fun s => Steps.sublist (List.take_sublist _ _)⟩
instance (i : Nat) : Does C (modS fun s => { s with stack := s.stack.eraseIdx i }) := Does.sub fun s => List.eraseIdx_sublist _ _
instance (i : Nat) : Does C (modS fun s => { s with stack := s.stack.erase i }) := Does.sub fun s => List.erase_sublist

theorem popW_sublist (p : Nat → Bool) : ∀ l : List Nat, (popW p l).Sublist l
  | [] => .slnil
  | [x] => List.Sublist.refl _
  | x :: y :: l => by
    unfold popW
    split
    · exact (popW_sublist p (y :: l)).cons x
    · exact List.Sublist.refl _

theorem popWhile_steps (s : St) (p : Nat → Bool) : Steps C s (s.popWhile p) := Steps.sublist (by
  have h := (popW_sublist p s.stack.reverse).reverse
  rwa [List.reverse_reverse] at h)

instance (name : Str) : Does C (removeOpenByName name) := by unfold removeOpenByName; does
instance (i : Nat) : Does C (cutAt i) := by unfold cutAt; does
instance : Does C popDirty := by unfold popDirty; does
instance (name : Str) : Does C (closeUntil name) := by unfold closeUntil; does
instance (name : Str) : Does C (closeHtmlUntil name) := by unfold closeHtmlUntil; does
instance (name : Str) (l : List Str) : Does C (closeBefore name l) := by unfold closeBefore; does
instance (name : Str) (l : List Str) : Does C (closeBefore' name l) := by unfold closeBefore'; does
instance (e : Option Str) : Does C (impliedEnds e) := by
  unfold impliedEnds
  have : Does C (modS fun s => s.popWhile fun i => impliedEnd.contains (s.n i).name && some (s.n i).name ≠ e) := ⟨fun s => popWhile_steps s _⟩
  does
instance : Does C closeLi := by unfold closeLi; does
instance : Does C popForeign := ⟨fun s => popWhile_steps s _⟩
instance (name : Str) : Does C (repairStack name) := by unfold repairStack; does
instance : Does C closeStray := by unfold closeStray; does

/-! ### The list of formatting elements -/

theorem Steps.fmtOf {s s' : St} (l : List (Option FEntry))
    (h : ∀ e, some e ∈ l → ∃ e', some e' ∈ s.fmt ∧ e.name = e'.name ∧ e.attrs = e'.attrs ∧ e.node = e'.node)
    (hc : s'.core = ({ s with fmt := l } : St).core) : Steps C s s' :=
  (Steps.one (.fmt l fun e he => let ⟨e', h1, h2, h3, _⟩ := h e he; ⟨e', h1, h2, h3⟩) fun k => k.fmtSub fun e he => let ⟨e', h1, h2, _, h3⟩ := h e he; ⟨e', h1, h2, h3⟩).trans
    (.ctl hc)

theorem Steps.fmtMem {s s' : St} (l : List (Option FEntry)) (h : ∀ e, some e ∈ l → some e ∈ s.fmt)
    (hc : s'.core = ({ s with fmt := l } : St).core) : Steps C s s' := Steps.fmtOf l (fun e he => ⟨e, h e he, rfl, rfl, rfl⟩) hc

instance : Does C pushMarker := ⟨fun s => Steps.fmtMem (s.fmt ++ [none]) (fun e he => by
  rcases List.mem_append.1 he with h | h
  · exact h
  · simp at h) rfl⟩

theorem popToMarker_sub : ∀ (l : List (Option FEntry)) (e : FEntry), some e ∈ (popToMarker l).1 → some e ∈ l
  | [], _, h => h
  | none :: l, e, h => List.mem_cons_of_mem _ h
  | some _ :: l, e, h => List.mem_cons_of_mem _ (popToMarker_sub l e h)

instance (r : Bool) : Does C (clearToMarker r) := by
  unfold clearToMarker
  have : Does C (modS fun s => { s with fmt := (popToMarker s.fmt.reverse).1.reverse, fmtRetired := s.fmtRetired - (popToMarker s.fmt.reverse).2 }) :=
    ⟨fun s => Steps.fmtMem (popToMarker s.fmt.reverse).1.reverse (fun e he => by
      have := popToMarker_sub _ e (List.mem_reverse.1 he)
      exact List.mem_reverse.1 this) rfl⟩
  does

instance (eid : Nat) : Does C (retire eid) := by
  refine ⟨fun s => ?_⟩
  show Steps C s (if lastIs s.fmt eid then ({ s with fmt := s.fmt.dropLast } : St)
    else { s with fmt := s.fmt.map (deactivate eid), fmtRetired := s.fmtRetired + 1 })
  split
  · exact Steps.fmtMem s.fmt.dropLast (fun e he => List.dropLast_subset _ he) rfl
  · refine Steps.fmtOf (s.fmt.map (deactivate eid)) (fun e he => ?_) rfl
    obtain ⟨x, hx, hxe⟩ := List.mem_map.1 he
    cases x with
    | none => simp [deactivate] at hxe
    | some f =>
      simp only [deactivate, Option.map_some, Option.some.injEq] at hxe
      refine ⟨f, hx, ?_⟩
      rw [← hxe]
      split <;> exact ⟨rfl, rfl, rfl⟩

instance : Does C compactFmt := by
  unfold compactFmt
  have : Does C (modS fun s => { s with fmt := s.fmt.filter keepEntry, fmtRetired := 0 }) :=
    ⟨fun s => Steps.fmtMem (s.fmt.filter keepEntry) (fun e he => (List.mem_filter.1 he).1) rfl⟩
  does

instance (name : Str) : Does C (removeFmtByName name) := by unfold removeFmtByName; does

theorem setEntry_mem {s : St} {i node : Nat} {e : FEntry} (he : some e ∈ s.fmt.set i ((s.fmt.getD i none).map fun e => { e with node := node })) :
    some e ∈ s.fmt ∨ (e.node = node ∧ ∃ f, some f ∈ s.fmt ∧ e.name = f.name ∧ e.attrs = f.attrs) := by
  rcases List.mem_or_eq_of_mem_set he with h | h
  · exact .inl h
  · have h2 := h.symm
    rw [Option.map_eq_some_iff] at h2
    obtain ⟨f, hf, hfe⟩ := h2
    refine .inr ⟨by rw [← hfe], f, ?_, ?_⟩
    · rw [List.getD_eq_getElem?_getD] at hf
      cases hg : s.fmt[i]? with
      | none => rw [hg] at hf; simp at hf
      | some x => rw [hg] at hf; simp at hf; exact List.mem_of_getElem? (hf ▸ hg)
    · rw [← hfe]; exact ⟨rfl, rfl⟩

/-- The node of an entry becomes another one. -/
theorem setEntryNode_chain (i node : Nat) (s : St) : Chain C s (setEntryNode i node C s).2 := by
  refine .one (.fmt (s.fmt.set i ((s.fmt.getD i none).map fun e => { e with node := node })) fun e he => ?_)
  rcases setEntry_mem he with h | ⟨_, h⟩
  · exact ⟨e, h, rfl, rfl⟩
  · exact h

theorem setEntryNode_tidy (i node : Nat) {s : St} (k : Tidy s) (h : ¬ Fixed s node) : Tidy (setEntryNode i node C s).2 := by
  refine k.fmtNew fun e he => ?_
  rcases setEntry_mem he with h1 | ⟨h1, f, h2, h3, _⟩
  · exact k.fmtn e h1
  · rw [h1, h3]; exact ⟨h, (k.fmtn f h2).2⟩

instance : Does C closeCell := by unfold closeCell; does

end

end JH.Eng
