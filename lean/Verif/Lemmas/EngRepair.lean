import Verif.Lemmas.EngAdopt

/-! Templates and the repairs of the stack consist of primitive changes. -/
namespace JH.Eng

section
variable {C : Cfg}

theorem poNew_tidy {s : St} (h : Tidy s) : Tidy { s.add (elementNode c%"template" [] poNs) with stack := s.stack ++ [s.heap.length] } := by
  have g := leaf_grows (s := s) (n := elementNode c%"template" [] poNs) rfl rfl
  obtain ⟨k1, _⟩ := h.grow g
  have hn := n_add_eq s (elementNode c%"template" [] poNs)
  refine k1.push s.heap.length (by rw [len_add]; omega) (.inr ?_) ?_ (fun k => ?_) fun a ha o => ?_
  · rw [hn]; exact ⟨rfl, rfl⟩
  · rw [hn]; simp [elementNode]
  · exact Nat.lt_irrefl _ (h.fixed _ ((fixed_of g.fixed _).1 k)).1
  · have h1 := (g.over h o).2 (Nat.le_refl _)
    have h2 := h.stk a ha
    omega

instance [h : Named C c%"template"] : Does C (do
    let t ← alloc (elementNode c%"template" [] poNs)
    push t) := ⟨fun s => .one (.poNew h) poNew_tidy⟩

theorem bind_assoc {α β γ : Type} (m : EM α) (f : α → EM β) (g : β → EM γ) : (do let b ← (do let a ← m; f a); g b) = (do let a ← m; let b ← f a; g b) := rfl

instance [Named C c%"template"] : Does C startPoTemplate := by
  unfold startPoTemplate
  have h : Does C (do
    let t ← alloc (elementNode c%"template" [] poNs)
    push t
    modS fun s => { s with poDepth := s.poDepth + 1, tmodes := s.tmodes ++ [.initial], mParserTpl := true, mTpl := true }
    pushMarker) := by
    have h2 : Does C (do
      (do
        let t ← alloc (elementNode c%"template" [] poNs)
        push t)
      modS fun s => { s with poDepth := s.poDepth + 1, tmodes := s.tmodes ++ [.initial], mParserTpl := true, mTpl := true }
      pushMarker) := by does
    exact h2
  does

/-- Closing one of the parser's own templates. -/
theorem closePo_steps (idx : Nat) (s : St) (hi : s.stack[idx]? = some (s.stack.getD idx 0)) (hns : (s.n (s.stack.getD idx 0)).ns = poNs) (h0 : 0 < idx) :
    Steps C s (closePo idx C s).2 := by
  have h1 : (whQ (fun _ s' => !(s'.n (s.stack.getD idx 0)).children.isEmpty) (spillPo (s.stack.getD idx 0) (s.slot (s.stack.getD (idx - 1) 0))) C s).2 =
      ((s.n (s.stack.getD idx 0)).children.foldl (fun t c => t.append (s.slot (s.stack.getD (idx - 1) 0)) c) s) := by
    unfold whQ
    by_cases h : (!(s.n (s.stack.getD idx 0)).children.isEmpty) = true
    · rw [if_pos h]; rfl
    · rw [if_neg h]
      have : (s.n (s.stack.getD idx 0)).children = [] := by simpa using h
      rw [this]; rfl
  have h2 := Step.closePo (C := C) idx (s.stack.getD idx 0) (s.slot (s.stack.getD (idx - 1) 0)) hi hns
  have ht : Tidy s → Tidy { ((s.n (s.stack.getD idx 0)).children.foldl (fun t c => t.append (s.slot (s.stack.getD (idx - 1) 0)) c) s) with stack := s.stack.take idx } := fun k => by
    have hlt := (List.getElem?_eq_some_iff.1 hi).1
    rw [foldl_slot (s.stack.getD (idx - 1) 0) _ _ _ rfl]
    refine k.closePo idx _ _ hi hns (List.mem_of_getElem? (i := idx - 1) ?_)
    rw [List.getElem?_take_of_lt (by omega), List.getD_eq_getElem?_getD, List.getElem?_eq_getElem (by omega)]; rfl
  generalize hp : s.slot (s.stack.getD (idx - 1) 0) = parent at h1 h2 ht
  unfold closePo
  simp only [bind_eq]
  show Steps C s (modS _ C (modS _ C (appendBoundary (s.slot (s.stack.getD (idx - 1) 0)) C
    (whQ (fun _ s' => !(s'.n (s.stack.getD idx 0)).children.isEmpty) (spillPo (s.stack.getD idx 0) (s.slot (s.stack.getD (idx - 1) 0))) C s).2).2).2).2
  rw [hp, h1]
  have hst : ∀ (l : List Nat) (t : St), (l.foldl (fun t c => t.append parent c) t).stack = t.stack := by
    intro l
    induction l with
    | nil => exact fun _ => rfl
    | cons x l ih =>
      intro t
      refine (ih _).trans ?_
      show (t.append parent x).stack = t.stack
      unfold St.append
      split
      · split <;> rfl
      · rfl
  have hst := hst (s.n (s.stack.getD idx 0)).children s
  generalize (s.n (s.stack.getD idx 0)).children.foldl (fun t c => t.append parent c) s = t at h2 hst ht ⊢
  have h3 := (inferInstance : Does C (appendBoundary parent)).out ({ t with stack := s.stack.take idx } : St)
  refine ((Steps.one h2 ht).trans h3).trans (.ctl ?_)
  rw [← hst]
  rfl

instance : Does C closeTemplate := by
  have h : Does C (do
    whQ (fun _ s => !s.tmodes.isEmpty)
      (modS fun s => { s with tmodes := s.tmodes.dropLast, mTpl := if s.tmodes.length = 1 then false else s.mTpl })
    let d ← q fun _ s => s.fmtDirty
    clearToMarker d
    pure true : EM Bool) := by does
  refine ⟨fun s => ?_⟩
  unfold closeTemplate
  rw [bind_eq]
  show Steps C s ((match s.openTemplate with | none => pure false | some i => _ : EM Bool) C s).2
  cases ho : s.openTemplate with
  | none => exact .refl
  | some i =>
    obtain ⟨h1, h0, _⟩ := lastIdx_spec ho
    simp only
    refine bind_steps (iteQ_steps (fun hc => closePo_steps i s h1 (by simpa using hc) h0) fun _ => ?_) (h.out _)
    exact does_steps (inferInstance : Does C (modS fun s => s.cut i)) s

instance (name : Str) : Does C (endStaysForeign name) := by
  unfold endStaysForeign
  does

instance : Does C closeSections := by unfold closeSections; does
instance (i : Option Nat) : Does C (cutAfter i) := by unfold cutAfter; does
instance : Does C closeSelectInTable := by unfold closeSelectInTable; does
instance [Ok C] : Does C repairForCell := by unfold repairForCell; does
instance [Ok C] (t : Option Nat) : Does C (repairForRow t) := by unfold repairForRow; does
instance [Ok C] (name : Str) : Does C (repairTable name) := by unfold repairTable; does
instance : Does C closeToContext := by unfold closeToContext; does

end

end JH.Eng
