import Verif.Lemmas.EngUnwrap
import Verif.Lemmas.EngNames
import Verif.Lemmas.EngRootKeep

/-! The whole parse, with the removed elements unwrapped in any way. -/
namespace JH.Eng

/-- The state has none of the parser's own templates. -/
def NoPo (s : St) : Prop := ∀ x ∈ s.heads, x.2.2 ≠ poNs

theorem NoPo.live {s : St} (h : NoPo s) (i : Nat) : Live s i := by
  refine .inl ?_
  rcases head_mem s i with k | k
  · exact h _ k
  · have : (s.n i).ns = none := congrArg (fun x => x.2.2) k
    rw [this]; simp [poNs]

theorem NoPo.held {s : St} (h : NoPo s) : Held s := fun _ _ p _ => h.live p

theorem NoPo.copies {s t : St} (h : NoPo s) (k : Copies s t) : NoPo t := fun x hx => by
  rcases k.heads x hx with k | k
  · exact h x k
  · rw [k]; simp [poNs, ENode.head, default, instInhabitedENode.default]

section
variable {C : Cfg}

/-- At the start there is none. -/
theorem setup_noPo (hns : C.ctxNs ≠ poNs) : (setup C (rootState C)).2.fmt = [] ∧ NoPo (setup C (rootState C)).2 := by
  have hr : (rootNode C).ns = none := (root_facts (C := C)).1
  have hshell : ∀ s : St, s.heap = (shellState C).heap → NoPo s := by
    intro s hs x hx
    have e : s.heads = (shellState C).heads := by unfold St.heads; rw [hs]
    rw [e] at hx
    have : x = (none.elim (rootNode C) id : ENode).head ∨ x.2.2 = some c%"html" := by
      simp only [St.heads, shellState, List.map_cons, List.map_nil, List.mem_cons, List.not_mem_nil, or_false] at hx
      rcases hx with rfl | rfl | rfl | rfl
      · exact .inl rfl
      · exact .inr rfl
      · exact .inr rfl
      · exact .inr rfl
    rcases this with h | h
    · rw [h]; show (rootNode C).ns ≠ _; rw [hr]; simp [poNs]
    · rw [h]; simp [poNs]
  unfold setup iteQ
  split
  · rw [buildShell_eq]; exact ⟨rfl, hshell _ rfl⟩
  · dsimp only
    split
    · have e : (setupHtml C (rootState C)).2 = (whQ (fun C _ => !C.plan.rawMode && !C.plan.allowedTags.contains c%"body") (fun C s => noteUnwrap s.body C s) C
          (whQ (fun C _ => !C.plan.rawMode && !C.plan.allowedTags.contains c%"head") (fun C s => noteUnwrap (s.head.getD 0) C s) C
            { (buildShell C (rootState C)).2 with ctxNode := some 1, toUnwrap := [] }).2).2 := rfl
      have w : ∀ (c : Cfg → St → Bool) (k : St → Nat) (s : St), (whQ c (fun C s => noteUnwrap (k s) C s) C s).2.heap = s.heap ∧
          (whQ c (fun C s => noteUnwrap (k s) C s) C s).2.fmt = s.fmt := by
        intro c k s
        unfold whQ
        split <;> exact ⟨rfl, rfl⟩
      rw [e]
      refine ⟨?_, hshell _ ?_⟩
      · rw [(w _ (fun s => s.body) _).2, (w _ (fun s => s.head.getD 0) _).2, buildShell_eq]; rfl
      · rw [(w _ (fun s => s.body) _).1, (w _ (fun s => s.head.getD 0) _).1, buildShell_eq]
    · unfold whQ
      split
      · rw [setupContext_eq]
        refine ⟨rfl, fun x hx => ?_⟩
        simp only [St.heads, ctxState, List.map_cons, List.map_nil, List.mem_cons, List.not_mem_nil, or_false] at hx
        rcases hx with rfl | rfl
        · show (rootNode C).ns ≠ _; rw [hr]; simp [poNs]
        · show some C.ctxNsOf ≠ _
          unfold Cfg.ctxNsOf
          split
          · simp [poNs]
          · next x h => intro k; exact hns (by rw [h, k])
          · simp [poNs]
      · refine ⟨rfl, fun x hx => ?_⟩
        simp only [St.heads, rootState, List.map_cons, List.map_nil, List.mem_cons, List.not_mem_nil, or_false] at hx
        rw [hx]; show (rootNode C).ns ≠ _; rw [hr]; simp [poNs]

/-- Without a `template` tag there is none at the end of the input either. -/
theorem input_noPo [Ok C] (hns : C.ctxNs ≠ poNs) (hno : ¬ Named C c%"template") : NoPo (parseRange C (setup C (rootState C)).2).2 := by
  obtain ⟨h1, h2⟩ := setup_noPo hns
  have st := parseRange_steps (C := C) (setup C (rootState C)).2
  obtain ⟨_, ⟨l, h3, h4⟩, _⟩ := st.sourced (A := fun _ => True) trivial (fun _ _ => trivial) (fun _ _ _ _ _ => trivial) (Sourced.start h1 fun _ _ _ _ _ => trivial)
  intro x hx
  rw [h3] at hx
  rcases List.mem_append.1 hx with hx | hx
  · exact h2 x hx
  · rcases h4 x hx with ⟨_, k⟩ | ⟨_, k⟩ | ⟨y, ns, _, _, k, hn, _⟩
    · rw [k]; simp [poNs]
    · exact absurd k hno
    · rw [k]; intro e; exact hn (Option.some.inj e)

/-- The state before the removed elements are unwrapped. -/
def before (C : Cfg) (s : St) : St := (dropAll C (whQ (fun _ s => s.hasSelected) project C (finishShell C s).2).2).2

theorem before_copies (s : St) : Copies s (before C s) := by
  have : Copying (do finishShell; whQ (fun _ s => s.hasSelected) project; dropAll) := inferInstance
  exact this.out C s

theorem before_keeps (s : St) : Keeps0 s (before C s) := by
  have : Keeping (do finishShell; whQ (fun _ s => s.hasSelected) project; dropAll) := inferInstance
  exact this.out C s

theorem before_proper (s : St) (h : Tidy s) (hr : RecOk s) : Proper (before C s) := by
  have h1 : Proper (finishShell C s).2 := by
    have h0 : Proper s := h.proper fun i hi => ⟨(hr i hi).1, .inl (hr i hi).2.1, (hr i hi).2.2⟩
    unfold finishShell whQ
    split
    · next hc =>
      simp only [Bool.and_eq_true] at hc
      obtain ⟨⟨⟨⟨⟨⟨_, _⟩, hx⟩, _⟩, hk⟩, _⟩, _⟩ := hc
      obtain ⟨x, hx⟩ := Option.isSome_iff_exists.1 hx
      have ht := h.dropBody x hx (by simpa using hk)
      have e : (removeChild (s.html.getD 0) s.body C s).2 = (s.upd x fun n => { n with children := n.children.erase s.body }).upd s.body fun n => { n with parent := none } := by
        rw [hx]; rfl
      rw [e]
      refine ht.proper fun i hi => ?_
      have hh := heads_two s x s.body (fun n => { n with children := n.children.erase s.body }) (fun n => { n with parent := none }) (fun _ => rfl) fun _ => rfl
      have := hr i hi
      exact ⟨by rw [len_of_heads hh]; exact this.1, .inl (by rw [(ns_of_heads hh i).1]; exact this.2.1), by rw [(ns_of_heads hh i).2.1]; exact this.2.2⟩
    · exact h0
  have h2 : Proper (whQ (fun _ s => s.hasSelected) project C (finishShell C s).2).2 := by
    unfold whQ
    split
    · exact (project_ok C _ h1).1
    · exact h1
  exact dropAll_ok C _ h2

/-- The root is no element. -/
theorem root_notEl {s : St} (h : Keeps0 (rootState C) s) : ¬ El (s.n s.doc).kind := by
  obtain ⟨hd, l, h2⟩ := h
  have hk : (s.n 0).kind = (rootNode C).kind := by
    have e : s.heads = (rootNode C).head :: l := h2
    unfold St.heads at e
    cases hh : s.heap with
    | nil => rw [hh] at e; simp at e
    | cons a r =>
      rw [hh] at e
      simp only [List.map_cons, List.cons.injEq] at e
      have : s.n 0 = a := by rw [n_list, hh]; rfl
      rw [this]
      exact congrArg Prod.fst e.1
  have hd0 : s.doc = 0 := hd
  rw [hd0, hk]
  unfold rootNode El
  split <;> simp

/-- The last steps, with any way of unwrapping. -/
def finishWith (m : EM Unit) : EM Unit := do
  finishShell
  whQ (fun _ s => s.hasSelected) project
  dropAll
  m
  finishContext

/-- The parse, with any way of unwrapping. -/
def parseWith (m : EM Unit) : EM Unit := do
  buildRoot
  iteQ (fun C _ => C.fragment && textContext C) parseTextContext (do
    setup
    parseRange
    finishWith m)

/-- The result of a parse, with any way of unwrapping. -/
def resultWith (m : EM Unit) (C : Cfg) : Node :=
  let s := (parseWith m C (init C)).2
  treeF s (s.heap.length + 1) s.doc

/-- `t` is `s` with all recorded nodes unwrapped. -/
def Unwrapped (s t : St) : Prop :=
  Moved s t ∧ View.Chain (Live s) (· ∈ s.toUnwrap) s.view t.view ∧ ∀ q, Live s q → q ∉ s.toUnwrap → ∀ c ∈ t.view.K q, c ∉ s.toUnwrap

/-- The state whose nodes are where the view says. -/
def St.at (s : St) (v : View) : St := { s with heap := s.heap.mapIdx fun j n => { n with children := v.K j, parent := v.P j } }

theorem n_at (s : St) (v : View) (j : Nat) : (s.at v).n j = if j < s.heap.length then { s.n j with children := v.K j, parent := v.P j } else default := by
  show (s.heap.mapIdx fun j n => ({ n with children := v.K j, parent := v.P j } : ENode)).getD j default = _
  rw [List.getD_eq_getElem?_getD, List.getElem?_mapIdx]
  by_cases h : j < s.heap.length
  · rw [if_pos h, List.getElem?_eq_getElem h, St.n, List.getD_eq_getElem?_getD, List.getElem?_eq_getElem h]; rfl
  · rw [if_neg h, List.getElem?_eq_none (Nat.not_lt.1 h)]; rfl

theorem heads_at (s : St) (v : View) : (s.at v).heads = s.heads := by
  show ((s.heap.mapIdx fun j n => ({ n with children := v.K j, parent := v.P j } : ENode)).map ENode.head) = s.heap.map ENode.head
  refine List.ext_getElem? fun i => ?_
  rw [List.getElem?_map, List.getElem?_map, List.getElem?_mapIdx]
  cases s.heap[i]? <;> rfl

theorem Moved.at_eq {s t : St} (h : Moved s t) : (s.at t.view).heap = t.heap := by
  refine List.ext_getElem? fun i => ?_
  show (s.heap.mapIdx fun j n => ({ n with children := (t.n j).children, parent := (t.n j).parent } : ENode))[i]? = t.heap[i]?
  rw [List.getElem?_mapIdx]
  have hn := h.node i
  have hl := h.len
  by_cases hi : i < s.heap.length
  · have e1 : s.n i = s.heap[i] := by rw [St.n, List.getD_eq_getElem?_getD, List.getElem?_eq_getElem hi]; rfl
    have hi' : i < t.heap.length := by omega
    have e2 : t.n i = t.heap[i] := by rw [St.n, List.getD_eq_getElem?_getD, List.getElem?_eq_getElem hi']; rfl
    rw [List.getElem?_eq_getElem hi, List.getElem?_eq_getElem hi', ← e1, ← e2]
    simp only [Option.map_some, Option.some.injEq]
    simp only [ENode.core, ENode.mk.injEq] at hn
    cases ht : t.n i
    cases hs : s.n i
    rw [ht, hs] at hn
    simp_all
  · rw [List.getElem?_eq_none (Nat.not_lt.1 hi), List.getElem?_eq_none (by omega)]; rfl

/-- However the nodes are unwrapped, they still form a tree. -/
theorem Proper.chain {s : St} (h : Proper s) (hh : NoPo s) {v : View} (ch : View.Chain (Live s) (· ∈ s.toUnwrap) s.view v) : Proper (s.at v) := by
  have len : ∀ v, (s.at v).heap.length = s.heap.length := fun v => len_of_heads (heads_at s v)
  have hM : ∀ i, i ∈ s.toUnwrap → Live s i := fun i hi => (h.recd i hi).2.1
  induction ch with
  | refl => exact h.core (by rw [show (s.at s.view).heap = s.heap from (Moved.refl s).at_eq]; rfl)
  | @tail w u i p ch st ih =>
    have hg := (ch.expand hM (h.good hh.held)).1
    have hi := (h.recd i st.marked).1
    have hmem : p < s.heap.length := by
      have hmemP : ∀ {v : View}, View.Chain (Live s) (· ∈ s.toUnwrap) s.view v → ∀ q x, x ∈ v.K q → q < s.heap.length := by
        intro v c
        induction c with
        | refl => exact fun q x hx => mem_lt hx
        | @tail w u i p _ st ih =>
          intro q x hx
          rw [st.kids] at hx
          split at hx
          · exact absurd hx (by simp)
          · split at hx
            · next e => exact e ▸ ih p i st.mem
            · exact ih q x hx
      exact hmemP ch p i st.mem
    have live : ∀ v j, Live (s.at v) j ↔ Live s j := fun v => live_frame (heads_at s v) rfl
    have kk : ∀ v j, j < s.heap.length → ((s.at v).n j).children = v.K j ∧ ((s.at v).n j).parent = v.P j := fun v j hj => by rw [n_at, if_pos hj]; exact ⟨rfl, rfl⟩
    refine unwrap_proper (t := s.at u) ih (p := p) (i := i) ((live w i).2 (hM i st.marked)) (by rw [len]; exact hi) ?_ ?_ ⟨(s.at u).heap, rfl⟩ ((heads_at s u).trans (heads_at s w).symm)
      (fun j => ?_) fun j => ?_
    · rw [(kk w i hi).2]; exact (hg.kids p st.live i st.mem).2.2.1
    · rw [(kk w p hmem).1]; exact st.mem
    · rw [n_at, n_at]; split <;> rfl
    · obtain ⟨u1, u2⟩ := n_unwrapAt (s.at w) (p := p) (i := i) (by rw [len]; exact hi) (by rw [len]; exact hmem) j
      rw [u1, u2, len, (kk w p hmem).1, (kk w i hi).1]
      by_cases hj : j < s.heap.length
      · rw [(kk u j hj).1, (kk u j hj).2, (kk w j hj).1, (kk w j hj).2, st.kids, st.par]
        refine ⟨rfl, ?_⟩
        by_cases hji : j = i
        · rw [if_pos hji, if_pos hji]
        · rw [if_neg hji, if_neg hji]
          by_cases hm : j ∈ w.K i
          · rw [if_pos hm, if_pos ⟨hm, hj⟩]
          · rw [if_neg hm, if_neg fun k => hm k.1]
      · rw [if_neg fun (e : j = i) => hj (e ▸ hi), if_neg fun (e : j = p) => hj (e ▸ hmem), if_neg fun (e : j = i) => hj (e ▸ hi), if_neg fun (k : j ∈ w.K i ∧ j < s.heap.length) => hj k.2,
          n_at, n_at, if_neg hj, if_neg hj]
        exact ⟨rfl, rfl⟩

theorem Unwrapped.proper {s t : St} (h : Proper s) (hh : NoPo s) (u : Unwrapped s t) : Proper t := by
  obtain ⟨m, ch, _⟩ := u
  have hr := m.rest
  simp only [Prod.mk.injEq] at hr
  refine (h.chain hh ch).core ?_
  rw [m.at_eq, m.doc, hr.2.1, hr.2.2]
  rfl

theorem finish_alike {m₁ m₂ : EM Unit} {s : St} (hp : Proper s) (hh : Held s) (hd : ¬ El (s.n s.doc).kind) (h1 : Unwrapped s (m₁ C s).2) (h2 : Unwrapped s (m₂ C s).2) :
    treeF (finishContext C (m₁ C s).2).2 ((finishContext C (m₁ C s).2).2.heap.length + 1) (finishContext C (m₁ C s).2).2.doc =
      treeF (finishContext C (m₂ C s).2).2 ((finishContext C (m₂ C s).2).2.heap.length + 1) (finishContext C (m₂ C s).2).2.doc := by
  obtain ⟨a1, b1, c1⟩ := h1
  obtain ⟨a2, b2, c2⟩ := h2
  have al := hp.alike hh a1 a2 b1 b2 c1 c2
  have hM : ∀ i, i ∈ s.toUnwrap → Live s i := fun i hi => (hp.recd i hi).2.1
  have hG : Live s s.doc ∧ s.doc ∉ s.toUnwrap := ⟨.inl hp.doc.2, fun k => hd (hp.recd _ k).2.2⟩
  have kid : ∀ c ∈ ((m₁ C s).2.n (m₁ C s).2.doc).children, c < (m₁ C s).2.heap.length := fun c hc => by
    have g := (b1.expand hM (hp.good hh)).1
    rw [a1.doc] at hc
    rw [a1.len]
    exact (g.kids s.doc hG.1 c hc).1
  have al' := al.finishContext C (by rw [a1.doc]; exact hG) kid
  have e := al'.tree ((finishContext C (m₁ C s).2).2.heap.length + 1) (finishContext C (m₁ C s).2).2.doc
    (by rw [(Moved.finishContext C _).doc, a1.doc]; exact hG)
  rw [← e, al'.moved.len, al'.moved.doc]

/-- Two ways of unwrapping have the same result. -/
theorem result_same [Ok C] (hns : C.ctxNs ≠ poNs) (hno : ¬ Named C c%"template") {m₁ m₂ : EM Unit}
    (h : ∀ s, Proper s → Held s → Unwrapped s (m₁ C s).2 ∧ Unwrapped s (m₂ C s).2) :
    resultWith m₁ C = resultWith m₂ C := by
  have e : ∀ m : EM Unit, (parseWith m C (init C)).2 = (iteQ (fun C _ => C.fragment && textContext C) parseTextContext (do
    setup
    parseRange
    finishWith m) C (rootState C)).2 := fun _ => rfl
  unfold resultWith
  simp only [e]
  unfold iteQ
  by_cases ht : (C.fragment && textContext C) = true
  · rw [if_pos ht, if_pos ht]
  · rw [if_neg ht, if_neg ht]
    obtain ⟨k1, k2⟩ := setup_ok (C := C) hns
    have st := parseRange_steps (C := C) (setup C (rootState C)).2
    have hp := before_proper (C := C) _ (st.tidy k1) (st.chain.recOk k2)
    have hn := (input_noPo hns hno).copies (before_copies (C := C) _)
    have hk : Keeps0 (rootState C) (before C (parseRange C (setup C (rootState C)).2).2) :=
      (((inferInstance : Keeping setup).out C _).trans st.keeps).trans (before_keeps _)
    obtain ⟨u1, u2⟩ := h _ hp hn.held
    exact finish_alike hp hn.held (root_notEl hk) u1 u2

/-- The nodes at the end of a parse form a tree, however they are unwrapped. -/
theorem with_proper [Ok C] (hns : C.ctxNs ≠ poNs) (hno : ¬ Named C c%"template") {m : EM Unit} (h : ∀ s, Proper s → Held s → Unwrapped s (m C s).2) :
    Proper (parseWith m C (init C)).2 := by
  have e : (parseWith m C (init C)).2 = (iteQ (fun C _ => C.fragment && textContext C) parseTextContext (do
    setup
    parseRange
    finishWith m) C (rootState C)).2 := rfl
  rw [e]
  unfold iteQ
  split
  · have st := does_steps (inferInstance : Does C parseTextContext) (rootState C)
    have hr := st.chain.recOk (fun i hi => absurd hi (by simp [rootState, init]))
    exact (st.tidy root_tidy).proper fun i hi => ⟨(hr i hi).1, .inl (hr i hi).2.1, (hr i hi).2.2⟩
  · obtain ⟨k1, k2⟩ := setup_ok (C := C) hns
    have st := parseRange_steps (C := C) (setup C (rootState C)).2
    have hp := before_proper (C := C) _ (st.tidy k1) (st.chain.recOk k2)
    have hn := (input_noPo hns hno).copies (before_copies (C := C) _)
    exact finishContext_ok (C := C) _ ((h _ hp hn.held).proper hp hn)

end
end JH.Eng
