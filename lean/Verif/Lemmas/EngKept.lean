import Verif.Lemmas.EngWhole

/-! What is in the tree at the end: allowed elements (C75). -/
namespace JH.Eng

section
variable {C : Cfg} {o : Option Nat}

theorem head_at {s : St} {i : Nat} (hi : i < s.heap.length) : s.heads[i]? = some (s.n i).head := by
  unfold St.heads St.n
  rw [List.getElem?_map, List.getD_eq_getElem?_getD, List.getElem?_eq_getElem hi]
  rfl

theorem Inv.elem {s : St} (h : Inv C o s) (hraw : C.plan.rawMode = false) (i : Nat) (hk : (s.n i).kind = .element ∨ (s.n i).kind = .template) :
    (s.n i).ns = poNs ∨ Rec s i ∨ Spared C (s.n i).name (s.n i).ns ∨ o = some i := by
  by_cases hi : i < s.heap.length
  · rcases h.kept hraw i _ (head_at hi) hk with k | k | k
    · exact .inl k
    · exact .inr (.inl (.inr k))
    · exact .inr (.inr k)
  · rw [n_ge s (Nat.not_lt.1 hi)] at hk
    exact absurd hk (by simp [default, instInhabitedENode.default])

theorem Tidy.fin {s : St} (h : Tidy s) : Fin s (fun _ => False) s :=
  ⟨rfl, ⟨rfl, rfl, rfl, rfl⟩, fun _ => rfl, fun p hp c hc => ⟨(h.kids p (.inl hp) c hc).1, (h.kids p (.inl hp) c hc).2.1, fun _ => (h.kids p (.inl hp) c hc).2.2 trivial⟩, fun _ hi => hi.elim, fun _ _ h0 => h0⟩

theorem Inv.recorded {s : St} (h : Inv C o s) (ht : Tidy s) (hr : RecOk s) : Fin s (Rec s) ((do dropAll; unwrapAll : EM Unit) C s).2 := by
  have hrec : ∀ i, Rec s i → i < s.heap.length ∧ (s.n i).ns ≠ poNs := fun i hi => by
    have := hr i (hi.elim (h.drop i) id)
    exact ⟨this.1, this.2.1⟩
  have h1 : Fin s (fun j => False ∨ j ∈ s.toDrop.reverse) (dropAll C s).2 :=
    Fin.each C (fun i => Rec s i) (fun D t i ht hi => ht.drop C i hi) s.toDrop.reverse _ s (fun i hi => .inl (List.mem_reverse.1 hi)) ht.fin
  have h2 : Fin s (fun j => (False ∨ j ∈ s.toDrop.reverse) ∨ j ∈ (dropAll C s).2.toUnwrap.reverse) (unwrapAll C (dropAll C s).2).2 := by
    refine Fin.each C (fun i => Rec s i) (fun D t i ht hi => ht.unwrap C i hi (hrec i hi).1 (hrec i hi).2) _ _ _ (fun i hi => ?_) h1
    rw [h1.frame.2.2.1] at hi
    exact .inr (List.mem_reverse.1 hi)
  rw [h1.frame.2.2.1] at h2
  refine Fin.mono (s := ((do dropAll; unwrapAll : EM Unit) C s).2) h2 fun i hi => ?_
  rcases hi with hi | hi
  · exact .inl (.inr (List.mem_reverse.2 hi))
  · exact .inr (List.mem_reverse.2 hi)

/-- What the elements of the tree are. -/
def ElemOk (C : Cfg) : Node → Prop
  | .elem name ns _ _ _ _ => Spared C name ns
  | _ => True

/-- What is in the tree at the end. -/
theorem Inv.finish {s : St} (h : Inv C s.ctxNode s) (ht : Tidy s) (hr : RecOk s) (hdoc : ¬ El (s.n s.doc).kind) (hs : s.hasSelected = false)
    (hctx : ∀ c, s.ctxNode = some c → (s.n c).ns ≠ poNs ∧ c ≠ s.doc) (hraw : C.plan.rawMode = false) (f : Nat) :
    Spec.Everywhere (ElemOk C) (treeF (Eng.finish C s).2 f (Eng.finish C s).2.doc) := by
  have hsh : Inv C s.ctxNode (finishShell C s).2 ∧ Tidy (finishShell C s).2 ∧ RecOk (finishShell C s).2 ∧ (finishShell C s).2.hasSelected = s.hasSelected ∧
      (finishShell C s).2.ctxNode = s.ctxNode ∧ (finishShell C s).2.heads = s.heads ∧ (finishShell C s).2.doc = s.doc := by
    unfold finishShell whQ
    split
    · next hc =>
      simp only [Bool.and_eq_true] at hc
      obtain ⟨⟨⟨⟨⟨⟨_, _⟩, hx⟩, _⟩, hk⟩, _⟩, _⟩ := hc
      obtain ⟨x, hx⟩ := Option.isSome_iff_exists.1 hx
      have htb := ht.dropBody x hx (by simpa using hk)
      have e : (removeChild (s.html.getD 0) s.body C s).2 = (s.upd x fun n => { n with children := n.children.erase s.body }).upd s.body fun n => { n with parent := none } := by
        rw [hx]; rfl
      rw [e]
      have hh := heads_two s x s.body (fun n => { n with children := n.children.erase s.body }) (fun n => { n with parent := none }) (fun _ => rfl) fun _ => rfl
      exact ⟨h.same hh rfl rfl, htb, hr.grow (l := []) (by simp [hh]) (.inl rfl), rfl, rfl, hh, rfl⟩
    · exact ⟨h, ht, hr, rfl, rfl, rfl, rfl⟩
  obtain ⟨h1, ht1, hr1, e1, e2, e3, e4⟩ := hsh
  have hfin : (Eng.finish C s).2 = (finishContext C ((do dropAll; unwrapAll : EM Unit) C (finishShell C s).2).2).2 := by
    unfold Eng.finish
    rw [bind_eq, bind_eq]
    have : (whQ (fun _ s => s.hasSelected) project C (finishShell C s).2).2 = (finishShell C s).2 := by
      unfold whQ
      rw [if_neg]
      show ¬ ((finishShell C s).2.hasSelected = true)
      rw [e1, hs]; simp
    rw [this]
    rfl
  have hF := h1.recorded ht1 hr1
  rw [hfin]
  obtain ⟨g1, g2, g3⟩ := finishContext_frame C ((do dropAll; unwrapAll : EM Unit) C (finishShell C s).2).2
  generalize hu : ((do dropAll; unwrapAll : EM Unit) C (finishShell C s).2).2 = u at *
  generalize hs1 : (finishShell C s).2 = s1 at *
  have hn : ∀ i, ((finishContext C u).2.n i).ns = (s1.n i).ns ∧ ((finishContext C u).2.n i).kind = (s1.n i).kind ∧ ((finishContext C u).2.n i).name = (s1.n i).name :=
    ns_of_heads (g1.trans hF.heads)
  have hkid : ∀ i, (s1.n i).ns ≠ poNs → ∀ x ∈ ((finishContext C u).2.n i).children, (s1.n x).ns ≠ poNs ∧ ¬ Rec s1 x := by
    have key : ∀ i, (s1.n i).ns ≠ poNs → ∀ x ∈ (u.n i).children, (s1.n x).ns ≠ poNs ∧ ¬ Rec s1 x := by
      intro i hi x hx
      obtain ⟨_, b, _⟩ := hF.kids i hi x hx
      exact ⟨(ns_of_heads hF.heads x).1 ▸ b, fun hR => hF.done x hR i hi hx⟩
    intro i hi x hx
    rcases finishContext_kids C u i x hx with hx | ⟨c, hc, hx⟩
    · exact key i hi x hx
    · refine key c ?_ x hx
      rw [hF.frame.2.2.2, e2] at hc
      rw [(ns_of_heads e3 c).1]
      exact (hctx c hc).1
  have hnd : ¬ Rec s1 s1.doc := fun hR => by
    have := (hr1 s1.doc (hR.elim (h1.drop _) id)).2.2
    rw [(ns_of_heads e3 s1.doc).2.1, e4] at this
    exact hdoc this
  have hgone : ∀ i, (s1.n i).ns ≠ poNs → ∀ x ∈ ((finishContext C u).2.n i).children, s.ctxNode ≠ some x := by
    intro i hi x hx hc
    have hne := hctx x hc
    have htop : ∀ p, (s1.n p).ns ≠ poNs → x ∈ (u.n p).children → p = s1.doc :=
      hF.top x hnd fun p hp hk => ht1.tie s1.doc x (.inr ⟨rfl, e2 ▸ hc⟩) p ⟨.inl hp, .inl hk⟩
    have hnx : (s1.n x).ns ≠ poNs := by rw [(ns_of_heads e3 x).1]; exact hne.1
    have hd : u.doc < u.heap.length := by
      rw [hF.frame.1, len_of_heads hF.heads]
      exact (ht1.fixed s1.doc (.inl rfl)).1
    refine finishContext_gone C u x (by rw [hF.frame.2.2.2, e2]; exact hc) (fun k => hne.2 ((htop x hnx k).trans e4)) hd i (fun k => ?_) hx
    rw [hF.frame.1]
    exact htop i hi k
  refine treeF_reach (G := fun i => (s1.n i).ns ≠ poNs ∧ ¬ Rec s1 i ∧ s.ctxNode ≠ some i) trivial (fun i hi x hx => ⟨(hkid i hi.1 x hx).1, (hkid i hi.1 x hx).2, hgone i hi.1 x hx⟩) (fun i c hi hc x hx => ?_) (fun i kids tpl content hi => ?_) f _ ?_
  · rw [g3, hF.cont] at hc
    have hb := (ht1.cont i c hc).2.1
    exact ⟨(hkid c hb x hx).1, (hkid c hb x hx).2, hgone c hb x hx⟩
  · unfold shown
    have := h1.elem hraw i
    rw [(hn i).2.1]
    cases hk : (s1.n i).kind <;> simp only [ElemOk]
    · rw [(hn i).1, (hn i).2.2]
      rcases this (by simp [hk]) with k | k | k | k
      · exact absurd k hi.1
      · exact absurd k hi.2.1
      · exact k
      · exact absurd k hi.2.2
    · rw [(hn i).1, (hn i).2.2]
      rcases this (by simp [hk]) with k | k | k | k
      · exact absurd k hi.1
      · exact absurd k hi.2.1
      · exact k
      · exact absurd k hi.2.2
  · rw [g2, hF.frame.1]
    exact ⟨(ht1.fixed s1.doc (.inl rfl)).2, hnd, fun hc => (hctx _ hc).2 e4⟩

/-! ### The start -/

theorem root_kind : ¬ El (rootNode C).kind := by
  unfold rootNode El
  split <;> simp

/-- What the start gives: the root and, for a document, the three elements; for a fragment the context, unless it is `div`. -/
structure Start (C : Cfg) (s : St) : Prop where
  inv : Inv C s.ctxNode s
  doc : s.doc = 0 ∧ 0 < s.heap.length ∧ ¬ El (s.n 0).kind
  fmt : s.fmt = []
  sel : s.hasSelected = false
  ctx : ∀ c, s.ctxNode = some c → c < s.heap.length ∧ (s.n c).ns ≠ poNs ∧ c ≠ 0

theorem setup_start (hns : C.ctxNs ≠ poNs)
    (hn : C.fragment = true ∨ C.plan.rawMode = true ∨ (c%"html" ∈ C.plan.allowedTags ∧ c%"head" ∈ C.plan.allowedTags ∧ c%"body" ∈ C.plan.allowedTags)) :
    Start C (setup C (rootState C)).2 := by
  have hroot : (rootNode C).head.1 ≠ .element ∧ (rootNode C).head.1 ≠ .template := by
    have := root_kind (C := C)
    unfold El at this
    show (rootNode C).kind ≠ .element ∧ (rootNode C).kind ≠ .template
    constructor <;> intro k <;> (rw [k] at this; exact this ⟨by decide, by decide⟩)
  have hkind : ¬ El ({ rootNode C with children := [1] } : ENode).kind := root_kind (C := C)
  have hpo : C.ctxNsOf ≠ c%"justhtml-parser-only" := by
    unfold Cfg.ctxNsOf
    split
    · simp
    · next x h => intro k; exact hns (by rw [h, k]; rfl)
    · simp
  have shell : ∀ (l : List Nat) (c : Option Nat), (c = none ∨ c = some 1) →
      (C.plan.rawMode = false → (Spared C c%"html" (some c%"html") ∨ c = some 1) ∧ (2 ∈ l ∨ Spared C c%"head" (some c%"html")) ∧ (3 ∈ l ∨ Spared C c%"body" (some c%"html"))) →
      Start C { shellState C with ctxNode := c, toUnwrap := l } := by
    intro l c hc hl
    refine ⟨⟨fun i hi => absurd hi (by simp [shellState, rootState, init]), fun hr i x hx hk => ?_⟩, ⟨rfl, by simp [shellState], hkind⟩, rfl, rfl, fun k hk => ?_⟩
    · obtain ⟨k1, k2, k3⟩ := hl hr
      match i with
      | 0 =>
        have : x = (rootNode C).head := (Option.some.inj (show some _ = some x from hx)).symm
        subst this
        exact hk.elim (fun k => absurd k hroot.1) fun k => absurd k hroot.2
      | 1 =>
        have : x = (elementNode c%"html" [] (some c%"html")).head := (Option.some.inj (show some _ = some x from hx)).symm
        subst this
        exact .inr (.inr k1)
      | 2 =>
        have : x = (elementNode c%"head" [] (some c%"html")).head := (Option.some.inj (show some _ = some x from hx)).symm
        subst this
        exact .inr (k2.imp id .inl)
      | 3 =>
        have : x = (elementNode c%"body" [] (some c%"html")).head := (Option.some.inj (show some _ = some x from hx)).symm
        subst this
        exact .inr (k3.imp id .inl)
      | i + 4 => exact absurd hx (by simp [St.heads, shellState])
    · rcases hc with hc | hc
      · exact absurd (show c = some k from hk) (by rw [hc]; simp)
      · have : k = 1 := by
          have : c = some k := hk
          rw [hc] at this
          simpa using this.symm
        subst this
        exact ⟨by show 1 < 4; omega, by show some c%"html" ≠ _; simp [poNs], by omega⟩
  unfold setup iteQ
  split
  · next hf =>
    rw [buildShell_eq]
    have hf' : C.fragment = false := by simpa using hf
    refine shell [] none (.inl rfl) fun hr => ?_
    rcases hn with hn | hn | hn
    · rw [hf'] at hn; exact absurd hn (by simp)
    · rw [hr] at hn; exact absurd hn (by simp)
    · exact ⟨.inl ⟨rfl, hn.1⟩, .inr ⟨rfl, hn.2.1⟩, .inr ⟨rfl, hn.2.2⟩⟩
  · next hf =>
    have hf' : C.fragment = true := by simpa using hf
    dsimp only
    split
    · next hh =>
      have e : (setupHtml C (rootState C)).2 = (whQ (fun C _ => !C.plan.rawMode && !C.plan.allowedTags.contains c%"body") (fun C s => noteUnwrap s.body C s) C
          (whQ (fun C _ => !C.plan.rawMode && !C.plan.allowedTags.contains c%"head") (fun C s => noteUnwrap (s.head.getD 0) C s) C
            { (buildShell C (rootState C)).2 with ctxNode := some 1, toUnwrap := [] }).2).2 := rfl
      rw [e, buildShell_eq]
      unfold whQ
      have al : ∀ y, C.plan.rawMode = false → ¬ (!C.plan.rawMode && !C.plan.allowedTags.contains y) = true → Spared C y (some c%"html") := fun y hr k => by
        rw [hr] at k
        exact ⟨rfl, by simpa using k⟩
      by_cases c1 : (!C.plan.rawMode && !C.plan.allowedTags.contains c%"head") = true <;> by_cases c2 : (!C.plan.rawMode && !C.plan.allowedTags.contains c%"body") = true <;>
        simp only [c1, c2, if_true]
      · exact shell [2, 3] (some 1) (.inr rfl) fun hr => ⟨.inr rfl, .inl (by simp), .inl (by simp)⟩
      · exact shell [2] (some 1) (.inr rfl) fun hr => ⟨.inr rfl, .inl (by simp), .inr (al _ hr c2)⟩
      · exact shell [3] (some 1) (.inr rfl) fun hr => ⟨.inr rfl, .inr (al _ hr c1), .inl (by simp)⟩
      · exact shell [] (some 1) (.inr rfl) fun hr => ⟨.inr rfl, .inr (al _ hr c1), .inr (al _ hr c2)⟩
    · unfold whQ
      split
      · next hc =>
        rw [setupContext_eq]
        obtain ⟨name, hname, hne⟩ : ∃ name, C.ctxName = some name ∧ name ≠ [] := by
          dsimp only at hc
          cases hC : C.ctxName with
          | none => rw [hC] at hc; exact absurd hc (by simp)
          | some name => rw [hC] at hc; exact ⟨name, rfl, by rintro rfl; simp at hc⟩
        rw [hname, Option.getD_some]
        refine ⟨⟨fun i hi => absurd hi (by simp [ctxState, rootState, init]), fun hr i x hx hk => ?_⟩, ⟨rfl, by simp [ctxState], hkind⟩, rfl, rfl, fun k hk => ?_⟩
        · match i with
          | 0 =>
            have : x = (rootNode C).head := (Option.some.inj (show some _ = some x from hx)).symm
            subst this
            exact hk.elim (fun k => absurd k hroot.1) fun k => absurd k hroot.2
          | 1 =>
            have : x = (elementNode name [] (some C.ctxNsOf)).head := (Option.some.inj (show some _ = some x from hx)).symm
            subst this
            exact .inr (.inr (.inr rfl))
          | i + 2 => exact absurd hx (by simp [St.heads, ctxState])
        · have : k = 1 := by
            have : some 1 = some k := hk
            simpa using this.symm
          subst this
          exact ⟨by show 1 < 2; omega, by show some C.ctxNsOf ≠ _; simpa [poNs] using hpo, by omega⟩
      · refine ⟨⟨fun i hi => absurd hi (by simp [rootState, init]), fun hr i x hx hk => ?_⟩, ⟨rfl, by simp [rootState], root_kind (C := C)⟩, rfl, rfl, fun k hk => absurd hk (by simp [rootState, init])⟩
        match i with
        | 0 =>
          have : x = (rootNode C).head := (Option.some.inj (show some _ = some x from hx)).symm
          subst this
          exact hk.elim (fun k => absurd k hroot.1) fun k => absurd k hroot.2
        | i + 1 => exact absurd hx (by simp [St.heads, rootState])

/-- The nodes of the start have no attributes, and their namespace is that of HTML or of the context. -/
theorem setup_plain : ∀ x ∈ (setup C (rootState C)).2.fulls, x.2 = [] ∧ ∀ ns, x.1.2.2 = some ns → ns = c%"html" ∨ (C.fragment = true ∧ ns = C.ctxNsOf) := by
  have hroot : (rootNode C).full.2 = [] ∧ (rootNode C).full.1.2.2 = none := by unfold rootNode; split <;> exact ⟨rfl, rfl⟩
  have root : ∀ n : ENode, n.full = (rootNode C).full → n.full.2 = [] ∧ ∀ ns, n.full.1.2.2 = some ns → ns = c%"html" ∨ (C.fragment = true ∧ ns = C.ctxNsOf) := by
    intro n hn
    rw [hn]
    exact ⟨hroot.1, fun ns e => absurd (hroot.2.symm.trans e) (by simp)⟩
  have shell : ∀ x ∈ (shellState C).fulls, x.2 = [] ∧ ∀ ns, x.1.2.2 = some ns → ns = c%"html" ∨ (C.fragment = true ∧ ns = C.ctxNsOf) := by
    intro x hx
    have hx : x ∈ [(({ rootNode C with children := [1] } : ENode)).full, (((.element, c%"html", some c%"html"), []) : (Kind × Str × Option Str) × Attrs),
      ((.element, c%"head", some c%"html"), []), ((.element, c%"body", some c%"html"), [])] := hx
    simp only [List.mem_cons, List.not_mem_nil, or_false] at hx
    rcases hx with rfl | rfl | rfl | rfl
    · exact root _ rfl
    · exact ⟨rfl, fun ns e => .inl (Option.some.inj e).symm⟩
    · exact ⟨rfl, fun ns e => .inl (Option.some.inj e).symm⟩
    · exact ⟨rfl, fun ns e => .inl (Option.some.inj e).symm⟩
  unfold setup iteQ
  split
  · rw [buildShell_eq]; exact shell
  · next hf =>
    dsimp only
    split
    · have e : (setupHtml C (rootState C)).2.fulls = (shellState C).fulls := by
        have e : (setupHtml C (rootState C)).2 = (whQ (fun C _ => !C.plan.rawMode && !C.plan.allowedTags.contains c%"body") (fun C s => noteUnwrap s.body C s) C
          (whQ (fun C _ => !C.plan.rawMode && !C.plan.allowedTags.contains c%"head") (fun C s => noteUnwrap (s.head.getD 0) C s) C
            { (buildShell C (rootState C)).2 with ctxNode := some 1, toUnwrap := [] }).2).2 := rfl
        rw [e, buildShell_eq]
        unfold whQ
        by_cases c1 : (!C.plan.rawMode && !C.plan.allowedTags.contains c%"head") = true <;> by_cases c2 : (!C.plan.rawMode && !C.plan.allowedTags.contains c%"body") = true <;>
          simp only [c1, c2, if_true] <;> rfl
      rw [e]; exact shell
    · unfold whQ
      split
      · rw [setupContext_eq]
        intro x hx
        have hx : x ∈ [(({ rootNode C with children := [1] } : ENode)).full, (((.element, C.ctxName.getD [], some C.ctxNsOf), []) : (Kind × Str × Option Str) × Attrs)] := hx
        simp only [List.mem_cons, List.not_mem_nil, or_false] at hx
        rcases hx with rfl | rfl
        · exact root _ rfl
        · exact ⟨rfl, fun ns e => .inr ⟨by simpa using hf, (Option.some.inj e).symm⟩⟩
      · intro x hx
        have hx : x ∈ [(rootNode C).full] := hx
        simp only [List.mem_cons, List.not_mem_nil, or_false] at hx
        rw [hx]
        exact root _ rfl

/-- A parse keeps the kind, name and namespace of the nodes of the start. -/
theorem Steps.headAt {s t : St} (st : Steps C s t) {i : Nat} (hi : i < s.heap.length) : (t.n i).head = (s.n i).head := by
  obtain ⟨l, hl, _⟩ := st.heads
  have hlen : i < t.heap.length := by
    have := congrArg List.length hl
    simp [St.heads] at this
    omega
  have e1 : t.heads[i]? = s.heads[i]? := by rw [hl, List.getElem?_append_left (by rw [St.heads, List.length_map]; exact hi)]
  rw [head_at hi, head_at hlen] at e1
  simpa using e1

end

end JH.Eng
