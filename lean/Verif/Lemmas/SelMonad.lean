import Verif.Model.SelMatch
/-! Triples for computations with a selector context. -/
namespace JH

/-- From any context satisfying `I` the computation ends in one; a result satisfies `Q` and an error `E`. -/
def Ok {α : Type} (I : SCtx → Prop) (m : SM α) (Q : α → Prop) (E : SErr → Prop) : Prop :=
  ∀ c, I c → I (m c).2 ∧ (∀ a, (m c).1 = .ok a → Q a) ∧ ∀ e, (m c).1 = .error e → E e

variable {α β : Type} {I : SCtx → Prop} {E : SErr → Prop}

theorem Ok.pure {Q : α → Prop} {a : α} (h : Q a) : Ok I (pure a) Q E := fun _ hi =>
  ⟨hi, fun _ e => by cases e; exact h, fun _ e => by cases e⟩

theorem bind_run (x : SM α) (f : α → SM β) (c : SCtx) :
    (x >>= f) c = match x c with | (.ok a, c) => f a c | (.error e, c) => (.error e, c) := rfl

theorem Ok.bind {Q : α → Prop} {R : β → Prop} {x : SM α} {f : α → SM β} (hx : Ok I x Q E) (hf : ∀ a, Q a → Ok I (f a) R E) : Ok I (x >>= f) R E := by
  intro c hi
  have h1 := hx c hi
  rw [bind_run]
  rcases hc : x c with ⟨r, c'⟩
  rw [hc] at h1
  cases r with
  | error e => exact ⟨h1.1, nofun, fun e' he => by cases he; exact h1.2.2 e rfl⟩
  | ok a => exact hf a (h1.2.1 a rfl) c' h1.1

theorem Ok.mono {Q R : α → Prop} {x : SM α} (hx : Ok I x Q E) (h : ∀ a, Q a → R a) : Ok I x R E := fun c hi =>
  ⟨(hx c hi).1, fun a e => h a ((hx c hi).2.1 a e), (hx c hi).2.2⟩

theorem Ok.fail {Q : α → Prop} {e : SErr} (h : E e) : Ok I (SM.fail e : SM α) Q E := fun _ hi => ⟨hi, nofun, fun _ he => by cases he; exact h⟩

theorem Ok.get {Q : α → Prop} {f : SCtx → α} (h : ∀ c, I c → Q (f c)) : Ok I (SM.get f) Q E := fun c hi =>
  ⟨hi, fun _ e => by cases e; exact h c hi, nofun⟩

theorem Ok.set {Q : Unit → Prop} {f : SCtx → SCtx} (h : ∀ c, I c → I (f c)) (hq : Q ()) : Ok I (SM.set f) Q E := fun c hi => ⟨h c hi, fun _ _ => hq, nofun⟩

/-- The invariant does not care about one step of work. -/
def Steps (I : SCtx → Prop) : Prop := ∀ c : SCtx, I c → c.steps ≠ 0 → I { c with steps := c.steps - 1, work := c.work + 1 }

/-- The invariant does not care about bytes. -/
def SelBytes (I : SCtx → Prop) : Prop := ∀ (c : SCtx) (n : Nat), I c → I { c with bytes := n }

theorem Ok.step {Q : α → Prop} {k : SM α} (hs : Steps I) (he : E .steps) (hk : Ok I k Q E) : Ok I (do tick; work1; k) Q E := by
  intro c hi
  by_cases h0 : c.steps = 0
  · have : (do tick; work1; k : SM α) c = (.error .steps, c) := by simp [bind_run, tick, h0]
    rw [this]
    exact ⟨hi, nofun, fun _ e => by cases e; exact he⟩
  · have : (do tick; work1; k : SM α) c = k { c with steps := c.steps - 1, work := c.work + 1 } := by simp [bind_run, tick, work1, h0]
    rw [this]
    exact hk _ (hs c hi h0)

theorem Ok.bytes {n : Nat} {Q : α → Prop} {k : SM α} (hs : SelBytes I) (he : E .bytes) (hk : Ok I k Q E) : Ok I (do tickBytes n; k) Q E := by
  intro c hi
  by_cases h0 : c.bytes < n
  · have : (do tickBytes n; k : SM α) c = (.error .bytes, c) := by simp [bind_run, tickBytes, h0]
    rw [this]
    exact ⟨hi, nofun, fun _ e => by cases e; exact he⟩
  · have : (do tickBytes n; k : SM α) c = k { c with bytes := c.bytes - n } := by simp [bind_run, tickBytes, h0]
    rw [this]
    exact hk _ (hs c _ hi)

end JH
