import Verif.Lemmas.EngProper

/-! At the end of a parse the nodes form a tree (C94). -/
namespace JH.Eng

section
variable {C : Cfg}

/-! ### The end -/

theorem finishContext_ok (s : St) (h : Proper s) : Proper (finishContext C s).2 := by
  obtain ⟨f1, f2, f3⟩ := finishContext_frame C s
  cases hc : s.ctxNode with
  | none => unfold finishContext; rw [hc]; exact h
  | some c =>
    by_cases hm : (s.n s.doc).children.contains c = true
    · have hm' : c ∈ (s.n s.doc).children := by simpa using hm
      have hd : Live s s.doc := .inl h.doc.2
      have hk := h.kids s.doc hd c hm'
      have e : (finishContext C s).2 = (((s.setParents (s.n c).children s.doc).splice s.doc c (s.n c).children).upd c fun n => { n with children := [] }).upd c fun n => { n with parent := none } := by
        unfold finishContext
        rw [hc]
        simp only
        rw [if_pos hm]
      have l1 : (s.setParents (s.n c).children s.doc).heap.length = s.heap.length := len_of_heads (heads_setParents _ _ _)
      have l2 : ((s.setParents (s.n c).children s.doc).splice s.doc c (s.n c).children).heap.length = s.heap.length := (len_upd _ _ _).trans l1
      refine unwrap_proper h (p := s.doc) (i := c) (.inl hk.2.1) hk.1 ((hk.2.2 trivial).1) hm' ?_ f1 f3 fun j => ?_
      · obtain ⟨k, hk⟩ := setParents_frame (s.n c).children s.doc s
        rw [e, hk]; exact ⟨_, rfl⟩
      · obtain ⟨u1, u2⟩ := n_unwrapAt s hk.1 h.doc.1 j
        have hp := parents_some s.doc (s.n c).children s
        rw [u1, u2, e]
        constructor
        · rw [kids_upd _ _ _ (fun n => { n with parent := none }) fun _ => rfl, n_upd, l2]
          by_cases hj : j = c
          · subst hj; rw [if_pos ⟨rfl, hk.1⟩, if_pos rfl]
          · rw [if_neg fun k => hj k.1.symm, if_neg hj]
            unfold St.splice
            rw [n_upd, l1]
            by_cases hj2 : j = s.doc
            · subst hj2; rw [if_pos ⟨rfl, h.doc.1⟩, if_pos rfl]; simp only; rw [(hp _).1]
            · rw [if_neg fun k => hj2 k.1.symm, if_neg hj2, (hp j).1]
        · rw [n_upd, len_upd, l2]
          by_cases hj : j = c
          · subst hj; rw [if_pos ⟨rfl, hk.1⟩, if_pos rfl]
          · rw [if_neg fun k => hj k.1.symm, if_neg hj, parent_upd _ _ _ (fun n => { n with children := [] }) fun _ => rfl]
            unfold St.splice
            rw [parent_upd _ _ _ (fun n => { n with children := n.children.flatMap fun x => if x = c then (s.n c).children else [x] }) fun _ => rfl, (hp j).2]
    · have e : (finishContext C s).2 = s := by
        unfold finishContext
        rw [hc]
        simp only
        rw [if_neg hm]
      rw [e]; exact h

/-- The recorded nodes exist and are not the parser's own. -/
def RecOk (s : St) : Prop := ∀ i ∈ s.toUnwrap, i < s.heap.length ∧ (s.n i).ns ≠ poNs ∧ El (s.n i).kind

theorem RecOk.grow {s t : St} (h : RecOk s) {l : List (Kind × Str × Option Str)} (hh : t.heads = s.heads ++ l)
    (hu : t.toUnwrap = s.toUnwrap ∨ (t.toUnwrap = s.toUnwrap ++ [s.heap.length] ∧ s.heap.length < t.heap.length ∧ (t.n s.heap.length).ns ≠ poNs ∧ El (t.n s.heap.length).kind)) : RecOk t := by
  have old : ∀ i, i < s.heap.length → i < t.heap.length ∧ (t.n i).ns = (s.n i).ns ∧ (t.n i).kind = (s.n i).kind := by
    intro i hi
    have hl : t.heap.length = s.heap.length + l.length := by have := congrArg List.length hh; simpa [St.heads] using this
    refine ⟨by omega, ?_⟩
    have := congrArg (fun x => x[i]?) hh
    simp only [St.heads] at this
    rw [List.getElem?_append_left (by simpa using hi), List.getElem?_map, List.getElem?_map, List.getElem?_eq_getElem hi, List.getElem?_eq_getElem (by omega)] at this
    simp only [Option.map_some, Option.some.injEq] at this
    have := head_ns this
    unfold St.n
    rw [List.getD_eq_getElem?_getD, List.getD_eq_getElem?_getD, List.getElem?_eq_getElem hi, List.getElem?_eq_getElem (by omega)]
    exact ⟨this.2, this.1⟩
  intro i hi
  rcases hu with hu | ⟨hu, h1, h2⟩
  · rw [hu] at hi
    have := h i hi
    obtain ⟨k1, k2, k3⟩ := old i this.1
    exact ⟨k1, by rw [k2, k3]; exact this.2⟩
  · rw [hu] at hi
    rcases List.mem_append.1 hi with hi | hi
    · have := h i hi
      obtain ⟨k1, k2, k3⟩ := old i this.1
      exact ⟨k1, by rw [k2, k3]; exact this.2⟩
    · have : i = s.heap.length := by simpa using hi
      subst this
      exact ⟨h1, h2⟩

theorem Step.unwraps {s t : St} (st : Step C s t) :
    t.toUnwrap = s.toUnwrap ∨ (t.toUnwrap = s.toUnwrap ++ [s.heap.length] ∧ s.heap.length < t.heap.length ∧ (t.n s.heap.length).ns ≠ poNs ∧ El (t.n s.heap.length).kind) := by
  cases st with
  | ctl e => simp only [St.core, Prod.mk.injEq] at e; exact .inl e.2.2.2.2.2.2.2.2.2.1
  | elem n l p pos u d hn =>
    cases u with
    | false => exact .inl (by simp)
    | true =>
      right
      have hh := heads_link ({ s with heap := s.heap ++ n :: l } : St) p pos s.heap.length
      refine ⟨by simp, ?_, ?_, ?_⟩
      · show s.heap.length < (({ s with heap := s.heap ++ n :: l } : St).link p pos s.heap.length).heap.length
        rw [len_of_heads hh]; simp
      · show ((({ s with heap := s.heap ++ n :: l } : St).link p pos s.heap.length).n s.heap.length).ns ≠ poNs
        rw [(ns_of_heads hh _).1]
        have : ({ s with heap := s.heap ++ n :: l } : St).n s.heap.length = n := by unfold St.n; simp [List.getD_eq_getElem?_getD]
        rw [this]
        cases hn with
        | plain name attrs ns h1 => intro k; exact h1 (by simpa [elementNode, poNs] using k)
        | template attrs _ => simp [poNs]
      · show El ((({ s with heap := s.heap ++ n :: l } : St).link p pos s.heap.length).n s.heap.length).kind
        rw [(ns_of_heads hh _).2.1]
        have : ({ s with heap := s.heap ++ n :: l } : St).n s.heap.length = n := by unfold St.n; simp [List.getD_eq_getElem?_getD]
        rw [this]
        cases hn with
        | plain name attrs ns h1 => simp [elementNode, El]
        | template attrs _ => simp [El]
  | clone e u =>
    cases u with
    | false => exact .inl (by simp [St.add])
    | true =>
      right
      refine ⟨rfl, ?_, ?_⟩
      · show s.heap.length < (s.add _).heap.length
        rw [len_add]; omega
      · show ((s.add _).n s.heap.length).ns ≠ poNs ∧ El ((s.add _).n s.heap.length).kind
        rw [n_add]; simp [elementNode, poNs, El]
  | wrap e u b =>
    have hfr : ∀ (x : St) (a b : Nat), (x.moveChildren a b).toUnwrap = x.toUnwrap := fun x a b =>
      foldl_frame (f := fun s c => s.appendMoved b c) St.toUnwrap (fun _ _ => rfl) _ _
    have hu : ∀ (l : List Nat), ((({ s.add (elementNode e.name e.attrs (some c%"html")) with toUnwrap := l } : St).moveChildren b s.heap.length).appendMoved b s.heap.length).toUnwrap = l := fun l =>
      (show _ = (({ s.add (elementNode e.name e.attrs (some c%"html")) with toUnwrap := l } : St).moveChildren b s.heap.length).toUnwrap from rfl).trans (hfr _ _ _)
    cases u with
    | false => left; rw [hu]; simp
    | true =>
      right
      refine ⟨hu _, ?_⟩
      have hh : ((({ s.add (elementNode e.name e.attrs (some c%"html")) with toUnwrap := s.toUnwrap ++ if true then [s.heap.length] else [] } : St).moveChildren
        b s.heap.length).appendMoved b s.heap.length).heads = (s.add (elementNode e.name e.attrs (some c%"html"))).heads :=
        (heads_linkLast _ _ _).trans ((heads_moveChildren _ _ _).trans (heads_of rfl))
      rw [len_of_heads hh, (ns_of_heads hh _).1, (ns_of_heads hh _).2.1, len_add, n_add]
      exact ⟨by omega, by simp [elementNode, poNs], by simp [elementNode, El]⟩
  | move c p pos =>
    left
    obtain ⟨k, hk⟩ := detach_frame s c
    rw [hk]; rfl
  | clearBody =>
    left
    exact (show _ = ((s.n s.body).children.foldl (fun s c => s.upd c fun n => { n with parent := none }) s).toUnwrap from rfl).trans
      (foldl_frame (f := fun s c => s.upd c fun n => { n with parent := none }) St.toUnwrap (fun _ _ => rfl) _ _)
  | closePo i node parent =>
    left
    exact (show _ = ((s.n node).children.foldl (fun s c => s.append parent c) s).toUnwrap from rfl).trans
      (foldl_frame (f := fun s c => s.append parent c) St.toUnwrap (fun s c => by obtain ⟨k, hk⟩ := append_frame s parent c; rw [hk]) _ _)
  | _ => exact .inl rfl

theorem Chain.recOk {s t : St} (h : Chain C s t) (k : RecOk s) : RecOk t := by
  induction h with
  | refl => exact k
  | tail _ st ih =>
    obtain ⟨l, hl, _⟩ := st.heads
    exact ih.grow hl st.unwraps

theorem finish_ok (s : St) (h : Tidy s) (hr : RecOk s) : Proper (Eng.finish C s).2 := by
  have h1 : Proper (finishShell C s).2 := by
    have h0 : Proper s := h.proper fun i hi => ⟨(hr i hi).1, .inl (hr i hi).2.1, (hr i hi).2.2⟩
    unfold finishShell whQ
    split
    · next hc =>
      simp only [Bool.and_eq_true] at hc
      obtain ⟨⟨⟨⟨⟨⟨_, _⟩, hx⟩, _⟩, hk⟩, _⟩, _⟩ := hc
      obtain ⟨x, hx⟩ := Option.isSome_iff_exists.1 hx
      have ht := h.dropBody x hx (by simpa using hk)
      have e : (removeChild (s.html.getD 0) s.body C s).2 = (s.upd x fun n => { n with children := n.children.erase s.body }).upd s.body fun n => { n with parent := none } := by
        rw [hx]; rfl
      rw [e]
      refine ht.proper fun i hi => ?_
      have hh := heads_two s x s.body (fun n => { n with children := n.children.erase s.body }) (fun n => { n with parent := none }) (fun _ => rfl) fun _ => rfl
      have := hr i hi
      exact ⟨by rw [len_of_heads hh]; exact this.1, .inl (by rw [(ns_of_heads hh i).1]; exact this.2.1), by rw [(ns_of_heads hh i).2.1]; exact this.2.2⟩
    · exact h0
  have h2 : Proper (whQ (fun _ s => s.hasSelected) project C (finishShell C s).2).2 := by
    unfold whQ
    split
    · exact (project_ok C _ h1).1
    · exact h1
  exact finishContext_ok (C := C) _ (unwrapAll_ok C _ (dropAll_ok C _ h2))

/-! ### The start -/

/-- A small tree. -/
theorem Tidy.small {s : St} (hf : s.fmt = []) (hst : ∀ i ∈ s.stack, Fixed s i) (hfix : ∀ i, Fixed s i → i < s.heap.length ∧ (s.n i).ns ≠ poNs)
    (hk : ∀ p c, c ∈ (s.n p).children → c < s.heap.length ∧ (s.n c).ns ≠ poNs ∧ (s.n c).kind ≠ .fragment ∧ (s.n c).parent = some p ∧ (s.n p).children.count c = 1 ∧ p < c)
    (hc : ∀ p, (s.n p).content = none) (hx : ∀ c, s.ctxNode = some c → Fixed s c) (hb : ∀ x c, Tie s x c → ∀ p, c ∈ (s.n p).children → p = x) : Tidy s := by
  have he : ∀ p c, Edge s p c → c ∈ (s.n p).children := fun p c e => e.2.resolve_right fun k => by rw [hc] at k; exact absurd k (by simp)
  refine ⟨hfix, fun i hi => (hfix i (hst i hi)).1, fun p _ c h => ?_, fun p c h => ?_, fun p _ c h => (hk p c h).2.2.1, ⟨id, fun p c e => (hk p c (he p c e)).2.2.2.2.2⟩,
    ⟨fun i hi => .inl (hst i hi), List.pairwise_of_forall_mem_list fun a ha b hb => .inl ⟨hst a ha, hst b hb⟩⟩, fun e he => ?_, hx, fun x c hh p e => hb x c hh p (he p _ e)⟩
  · obtain ⟨h1, h2, _, h4, h5, _⟩ := hk p c h
    exact ⟨h1, h2, fun _ => ⟨h4, h5⟩⟩
  · rw [hc] at h; exact absurd h (by simp)
  · rw [hf] at he; exact absurd he (by simp)

/-- The root of the tree. -/
def rootNode (C : Cfg) : ENode :=
  if C.fragment then { kind := .fragment, name := c%"#document-fragment" } else { kind := .document, name := c%"#document" }

theorem root_facts : (rootNode C).ns = none ∧ (rootNode C).content = none ∧ (rootNode C).children = [] := by
  unfold rootNode; split <;> exact ⟨rfl, rfl, rfl⟩

/-- The state with only the root. -/
def rootState (C : Cfg) : St := { init C with heap := [rootNode C], doc := 0, body := 0, stack := [0] }

theorem buildRoot_eq : (buildRoot C (init C)).2 = rootState C := rfl

theorem n_list (s : St) (i : Nat) : s.n i = s.heap.getD i default := rfl

theorem root_tidy : Tidy (rootState C) := by
  obtain ⟨h1, h2, h3⟩ := root_facts (C := C)
  have hall : ∀ i, ((rootState C).n i).children = [] ∧ ((rootState C).n i).content = none := by
    intro i
    match i with
    | 0 => exact ⟨h3, h2⟩
    | i + 1 => exact ⟨rfl, rfl⟩
  refine .small rfl (fun i hi => ?_) (fun i hi => ?_) (fun p c hc => ?_) (fun p => (hall p).2) (fun c hc => absurd hc (by simp [rootState, init])) fun x c hh p hc => ?_
  · have : i = 0 := by simpa [rootState] using hi
    exact .inl this
  · have : i = 0 := by rcases hi with h | h | h | h <;> exact h
    subst this
    exact ⟨by simp [rootState], by show (rootNode C).ns ≠ _; rw [h1]; simp [poNs]⟩
  · rw [(hall p).1] at hc; exact absurd hc (by simp)
  · rw [(hall p).1] at hc; exact absurd hc (by simp)

/-- The state with `html`, `head` and `body`. -/
def shellState (C : Cfg) : St :=
  { rootState C with
    heap := [{ rootNode C with children := [1] }, { elementNode c%"html" [] (some c%"html") with children := [2, 3], parent := some 0 },
      { elementNode c%"head" [] (some c%"html") with parent := some 1 }, { elementNode c%"body" [] (some c%"html") with parent := some 1 }],
    html := some 1, head := some 2, body := 3, stack := [0, 1, 3] }

theorem buildShell_eq : (buildShell C (rootState C)).2 = shellState C := by
  have := (root_facts (C := C)).2.2
  unfold shellState
  have e : ({ rootNode C with children := [1] } : ENode) = { rootNode C with children := (rootNode C).children ++ [1] } := by rw [this]; rfl
  rw [e]; rfl

/-- The same with a context. -/
def shellCtx (C : Cfg) (o : Option Nat) : St := { shellState C with ctxNode := o }

theorem shell_tidy (o : Option Nat) (ho : o = none ∨ o = some 1) : Tidy (shellCtx C o) := by
  obtain ⟨h1, h2, h3⟩ := root_facts (C := C)
  have hfix : ∀ i, Fixed (shellCtx C o) i ↔ i = 0 ∨ i = 1 ∨ i = 2 ∨ i = 3 := fun i => Iff.rfl
  have hns : ∀ i, ((shellCtx C o).n i).ns ≠ poNs := by
    intro i
    match i with
    | 0 => show (rootNode C).ns ≠ _; rw [h1]; simp [poNs]
    | 1 => simp [shellCtx, shellState, n_list, elementNode, poNs]
    | 2 => simp [shellCtx, shellState, n_list, elementNode, poNs]
    | 3 => simp [shellCtx, shellState, n_list, elementNode, poNs]
    | i + 4 => show (none : Option Str) ≠ _; simp [poNs]
  have hkid : ∀ p c, c ∈ ((shellCtx C o).n p).children → (p = 0 ∧ c = 1) ∨ (p = 1 ∧ c = 2) ∨ (p = 1 ∧ c = 3) := by
    intro p c hc
    match p with
    | 0 => left; exact ⟨rfl, by simpa [shellCtx, shellState, n_list] using hc⟩
    | 1 => right; simpa [shellCtx, shellState, n_list] using hc
    | 2 => exact absurd hc (by simp [shellCtx, shellState, n_list, elementNode])
    | 3 => exact absurd hc (by simp [shellCtx, shellState, n_list, elementNode])
    | i + 4 => exact absurd (show c ∈ ([] : List Nat) from hc) (by simp)
  refine .small rfl (fun i hi => ?_) (fun i hi => ?_) (fun p c hc => ?_) (fun p => ?_) (fun c hc => ?_) fun h x hh p hp => ?_
  · have : i = 0 ∨ i = 1 ∨ i = 3 := by simpa [shellCtx, shellState] using hi
    rw [hfix]; omega
  · rw [hfix] at hi
    exact ⟨by show i < 4; omega, hns i⟩
  · rcases hkid p c hc with ⟨rfl, rfl⟩ | ⟨rfl, rfl⟩ | ⟨rfl, rfl⟩
    · exact ⟨by show 1 < 4; omega, hns _, by simp [shellCtx, shellState, n_list, elementNode], by simp [shellCtx, shellState, n_list], by simp [shellCtx, shellState, n_list], by omega⟩
    · exact ⟨by show 2 < 4; omega, hns _, by simp [shellCtx, shellState, n_list, elementNode], by simp [shellCtx, shellState, n_list], by simp [shellCtx, shellState, n_list], by omega⟩
    · exact ⟨by show 3 < 4; omega, hns _, by simp [shellCtx, shellState, n_list, elementNode], by simp [shellCtx, shellState, n_list], by simp [shellCtx, shellState, n_list], by omega⟩
  · match p with
    | 0 => exact h2
    | 1 => rfl
    | 2 => rfl
    | 3 => rfl
    | i + 4 => rfl
  · have hc : o = some c := hc
    have : c = 1 := by
      rcases ho with ho | ho
      · rw [ho] at hc; nomatch hc
      · rw [ho] at hc; exact (Option.some.inj hc).symm
    rw [hfix]; omega
  · have hk := hkid p x hp
    rcases hh with ⟨e, hb⟩ | ⟨e, hb⟩
    · have e : h = 1 := by have e : some 1 = some h := e; simpa using e.symm
      have hb : x = 3 := hb
      omega
    · have e : 0 = h := e
      have hb : o = some x := hb
      have : x = 1 := by
        rcases ho with ho | ho
        · rw [ho] at hb; nomatch hb
        · rw [ho] at hb; exact (Option.some.inj hb).symm
      omega

/-- The state with the context element. -/
def ctxState (C : Cfg) (name : Str) : St :=
  { rootState C with
    heap := [{ rootNode C with children := [1] }, { elementNode name [] (some C.ctxNsOf) with parent := some 0 }],
    ctxNode := some 1, body := 1, stack := [0, 1] }

theorem setupContext_eq (name : Str) : (setupContext name C (rootState C)).2 = ctxState C name := by
  have := (root_facts (C := C)).2.2
  unfold ctxState
  have e : ({ rootNode C with children := [1] } : ENode) = { rootNode C with children := (rootNode C).children ++ [1] } := by rw [this]; rfl
  rw [e]; rfl

theorem ctx_tidy (name : Str) (hns : C.ctxNsOf ≠ c%"justhtml-parser-only") : Tidy (ctxState C name) := by
  obtain ⟨h1, h2, h3⟩ := root_facts (C := C)
  have hfix : ∀ i, Fixed (ctxState C name) i ↔ i = 0 ∨ i = 0 ∨ i = 0 ∨ i = 1 := fun i => Iff.rfl
  have hns : ∀ i, ((ctxState C name).n i).ns ≠ poNs := by
    intro i
    match i with
    | 0 => show (rootNode C).ns ≠ _; rw [h1]; simp [poNs]
    | 1 => show some C.ctxNsOf ≠ _; simpa [poNs] using hns
    | i + 2 => show (none : Option Str) ≠ _; simp [poNs]
  have hkid : ∀ p c, c ∈ ((ctxState C name).n p).children → p = 0 ∧ c = 1 := by
    intro p c hc
    match p with
    | 0 => exact ⟨rfl, by simpa [ctxState, n_list] using hc⟩
    | 1 => exact absurd hc (by simp [ctxState, n_list, elementNode])
    | i + 2 => exact absurd (show c ∈ ([] : List Nat) from hc) (by simp)
  refine .small rfl (fun i hi => ?_) (fun i hi => ?_) (fun p c hc => ?_) (fun p => ?_) (fun c hc => ?_) fun h x hh p hp => ?_
  · have : i = 0 ∨ i = 1 := by simpa [ctxState] using hi
    rw [hfix]; omega
  · rw [hfix] at hi
    exact ⟨by show i < 2; omega, hns i⟩
  · obtain ⟨rfl, rfl⟩ := hkid p c hc
    exact ⟨by show 1 < 2; omega, hns _, by simp [ctxState, n_list, elementNode], by simp [ctxState, n_list], by simp [ctxState, n_list], by omega⟩
  · match p with
    | 0 => exact h2
    | 1 => rfl
    | i + 2 => rfl
  · have : c = 1 := by
      have hc : some 1 = some c := hc
      simpa using hc.symm
    rw [hfix]; omega
  · obtain ⟨rfl, rfl⟩ := hkid p x hp
    rcases hh with ⟨e, _⟩ | ⟨e, _⟩
    · exact absurd e (by simp [ctxState, rootState, init])
    · exact e

theorem setup_ok (hns : C.ctxNs ≠ poNs) : Tidy (setup C (rootState C)).2 ∧ RecOk (setup C (rootState C)).2 := by
  have hno : ∀ {s : St}, s.toUnwrap = [] → RecOk s := fun h i hi => by rw [h] at hi; exact absurd hi (by simp)
  unfold setup iteQ
  split
  · rw [buildShell_eq]; exact ⟨shell_tidy none (.inl rfl), hno rfl⟩
  · dsimp only
    split
    · have h1 : ∀ (u : List Nat), Tidy { shellState C with ctxNode := some 1, toUnwrap := u } := fun u => (shell_tidy (some 1) (.inr rfl)).core rfl
      have h2 : ∀ (u : List Nat), (∀ i ∈ u, i = 2 ∨ i = 3) → RecOk { shellState C with ctxNode := some 1, toUnwrap := u } := fun u hu i hi => by
        rcases hu i hi with rfl | rfl
        · exact ⟨by show 2 < 4; omega, by show (some c%"html") ≠ _; simp [poNs], by show El .element; simp [El]⟩
        · exact ⟨by show 3 < 4; omega, by show (some c%"html") ≠ _; simp [poNs], by show El .element; simp [El]⟩
      have e : (setupHtml C (rootState C)).2 = (whQ (fun C _ => !C.plan.rawMode && !C.plan.allowedTags.contains c%"body") (fun C s => noteUnwrap s.body C s) C
          (whQ (fun C _ => !C.plan.rawMode && !C.plan.allowedTags.contains c%"head") (fun C s => noteUnwrap (s.head.getD 0) C s) C
            { (buildShell C (rootState C)).2 with ctxNode := some 1, toUnwrap := [] }).2).2 := rfl
      rw [e, buildShell_eq]
      unfold whQ
      by_cases c1 : (!C.plan.rawMode && !C.plan.allowedTags.contains c%"head") = true <;> by_cases c2 : (!C.plan.rawMode && !C.plan.allowedTags.contains c%"body") = true <;>
        simp only [c1, c2, if_true]
      · exact ⟨h1 [2, 3], h2 [2, 3] (by simp)⟩
      · exact ⟨h1 [2], h2 [2] (by simp)⟩
      · exact ⟨h1 [3], h2 [3] (by simp)⟩
      · exact ⟨h1 [], h2 [] (by simp)⟩
    · unfold whQ
      split
      · rw [setupContext_eq]
        refine ⟨ctx_tidy _ ?_, hno rfl⟩
        unfold Cfg.ctxNsOf
        split
        · simp
        · next x h => intro k; exact hns (by rw [h, k]; rfl)
        · simp
      · exact ⟨root_tidy, hno rfl⟩

instance : Does C parseTextContext := by
  have h1 : Does C (fun C => rawLiteral C.html C : EM Unit) := ⟨fun s => does_steps (inferInstance : Does C (rawLiteral C.html)) s⟩
  have h2 : Does C (do
      let t ← orErr fun C => cleanText C true C.html
      let t ← q fun C _ => if C.ctxName = some c%"textarea" && t.head? = some '\n' then t.tail else t
      whQ (fun _ _ => !t.isEmpty) (do
        let d ← q fun _ s => s.doc
        appendNew d (textNode t))) := rcdataText_does C
  unfold parseTextContext
  exact @Does.iteQ _ _ _ _ _ h2 h1

/-- The nodes at the end of a parse form a tree. -/
theorem run_proper [Ok C] (hns : C.ctxNs ≠ poNs) : Proper (run C) := by
  have e : (run C) = (iteQ (fun C _ => C.fragment && textContext C) parseTextContext (do
    setup
    parseRange
    Eng.finish) C (rootState C)).2 := rfl
  rw [e]
  unfold iteQ
  split
  · have st := does_steps (inferInstance : Does C parseTextContext) (rootState C)
    have hr := st.chain.recOk (fun i hi => absurd hi (by simp [rootState, init]))
    exact (st.tidy root_tidy).proper fun i hi => ⟨(hr i hi).1, .inl (hr i hi).2.1, (hr i hi).2.2⟩
  · obtain ⟨h1, h2⟩ := setup_ok (C := C) hns
    have st := parseRange_steps (C := C) (setup C (rootState C)).2
    exact finish_ok _ (st.tidy h1) (st.chain.recOk h2)

end

end JH.Eng
