import Mathlib.Logic.Function.Basic
import Mathlib.Data.Nat.Notation

/-!
C199: a `PropertyChangedEventStream` (`nion/utils/Stream.py:260-310`) whose source objects may be false, as collections are that are empty.
Whether an object is true depends on its attributes and is asked once, when the source stream fires the object (line 285). Objects, their
attributes and Python values are as in C43 (`Follow.lean`), where all objects are true.
-/

namespace Verif.Stream.FalseSource

variable {V : Type}

/-- The stream and the objects: `__source_object`, the object that `__property_changed_listener` listens to, the value, the values fired;
whether the stream is open. -/
structure St (V : Type) where
  props : ℕ → String → Option V
  source : Option ℕ
  lis : Option ℕ
  value : Option V
  log : List (Option V)
  isOpen : Bool

inductive Act (V : Type) where
  /-- The source stream fires an object or `None`. -/
  | source (o : Option ℕ)
  /-- An attribute of an object is set and the object fires its property changed event. -/
  | set (o : ℕ) (key : String) (v : Option V)
  | close

/-- What the stream is made with: `cmp`, the name of the property; and which objects are true, given their attributes. -/
structure Cfg (V : Type) where
  cmp : Option V → Option V → Bool
  name : String
  truth : (String → Option V) → Bool

/-- Lines 305-310 for a key. -/
def St.propertyChanged (c : Cfg V) (key : String) (s : St V) : St V :=
  if key = c.name then
    match s.source with
    | some o => if c.cmp (s.props o c.name) s.value then s else { s with value := s.props o c.name, log := s.log ++ [s.props o c.name] }
    | none => s
  else s

/-- Lines 280-287. -/
def St.sourceChanged (c : Cfg V) (o : Option ℕ) (s : St V) : St V :=
  match o with
  | none => { s with lis := none, source := none }
  | some o =>
    if c.truth (s.props o) then St.propertyChanged c c.name { s with lis := some o, source := some o }
    else { s with lis := none, source := some o }

/-- Lines 265-289. -/
def start (c : Cfg V) (props : ℕ → String → Option V) (o : Option ℕ) : St V := St.sourceChanged c o ⟨props, none, none, none, [], true⟩

/-- Close: lines 291-299. -/
def step (c : Cfg V) (s : St V) : Act V → St V
  | .source o => if s.isOpen then s.sourceChanged c o else s
  | .set o key v =>
    let s' := { s with props := Function.update s.props o (Function.update (s.props o) key v) }
    if s.lis = some o then s'.propertyChanged c key else s'
  | .close => { s with lis := none, isOpen := false }

def run (c : Cfg V) (s : St V) (as : List (Act V)) : St V := as.foldl (step c) s

/-! ### Spec -/

/-- The attributes of the objects after a history. -/
def attrs (props : ℕ → String → Option V) : List (Act V) → ℕ → String → Option V
  | [] => props
  | .set o key v :: as => attrs (Function.update props o (Function.update (props o) key v)) as
  | _ :: as => attrs props as

/-- The values that the property takes while the stream is to follow it: at the moment an object arrives that is true then, and whenever the
property of that object is set before the next one arrives. -/
def follows (c : Cfg V) (props : ℕ → String → Option V) (at_ : Option ℕ) : List (Act V) → List (Option V)
  | [] => []
  | .source none :: as => follows c props none as
  | .source (some o) :: as => if c.truth (props o) then props o c.name :: follows c props (some o) as else follows c props none as
  | .set o key v :: as =>
    (if at_ = some o ∧ key = c.name then [v] else []) ++ follows c (Function.update props o (Function.update (props o) key v)) at_ as
  | .close :: _ => []

/-- The values of a sequence that differ from the one kept before. -/
def news (cmp : Option V → Option V → Bool) (x : Option V) : List (Option V) → List (Option V)
  | [] => []
  | y :: l => if cmp y x then news cmp x l else y :: news cmp y l

/-! ### Proofs -/

theorem run_cons (c : Cfg V) (s : St V) (a : Act V) (as : List (Act V)) : run c s (a :: as) = run c (step c s a) as := rfl

theorem run_append (c : Cfg V) (s : St V) (as bs : List (Act V)) : run c s (as ++ bs) = run c (run c s as) bs := List.foldl_append ..

/-- While the stream listens, it listens to the source object. -/
def Inv (s : St V) : Prop := ∀ o, s.lis = some o → s.source = some o

theorem changed_frame (c : Cfg V) (key : String) (s : St V) :
    (s.propertyChanged c key).lis = s.lis ∧ (s.propertyChanged c key).source = s.source ∧
    (s.propertyChanged c key).props = s.props ∧ (s.propertyChanged c key).isOpen = s.isOpen := by
  unfold St.propertyChanged; split
  · split
    · split <;> exact ⟨rfl, rfl, rfl, rfl⟩
    · exact ⟨rfl, rfl, rfl, rfl⟩
  · exact ⟨rfl, rfl, rfl, rfl⟩

theorem changed_at (c : Cfg V) (s : St V) (o : ℕ) (h : s.source = some o) : s.propertyChanged c c.name =
    if c.cmp (s.props o c.name) s.value then s else { s with value := s.props o c.name, log := s.log ++ [s.props o c.name] } := by
  rw [St.propertyChanged, if_pos rfl, h]

theorem closed_run (c : Cfg V) (as : List (Act V)) (s : St V) (h : s.isOpen = false) (hl : s.lis = none) :
    (run c s as).log = s.log ∧ (run c s as).value = s.value := by
  induction as generalizing s with
  | nil => exact ⟨rfl, rfl⟩
  | cons a as ih =>
    rw [run_cons]
    cases a with
    | source o => rw [step, if_neg (by simp [h])]; exact ih s h hl
    | set o key v => simp only [step]; rw [if_neg (by simp [hl])]; exact ih { s with props := _ } h hl
    | close => exact ih _ rfl rfl

theorem log_run (c : Cfg V) (as : List (Act V)) (s : St V) (hi : Inv s) (ho : s.isOpen = true) :
    (run c s as).log = s.log ++ news c.cmp s.value (follows c s.props s.lis as) ∧
      (run c s as).value = (news c.cmp s.value (follows c s.props s.lis as)).getLastD s.value := by
  induction as generalizing s with
  | nil => simp [run, follows, news]
  | cons a as ih =>
    rw [run_cons]
    cases a with
    | source o =>
      rw [step, if_pos ho]
      cases o with
      | none => exact ih { s with lis := none, source := none } (fun o h => by cases h) ho
      | some o =>
        rw [St.sourceChanged]
        simp only [follows]
        by_cases ht : c.truth (s.props o) = true
        · rw [if_pos ht, if_pos ht, changed_at c _ o rfl]
          simp only [news]
          by_cases hc : c.cmp (s.props o c.name) s.value = true
          · rw [if_pos hc, if_pos hc]
            exact ih { s with lis := some o, source := some o } (fun _ h => h) ho
          · rw [if_neg hc, if_neg hc]
            have := ih { s with lis := some o, source := some o, value := s.props o c.name, log := s.log ++ [s.props o c.name] } (fun _ h => h) ho
            refine ⟨?_, ?_⟩
            · rw [this.1]; simp
            · rw [this.2, List.getLastD_cons]
        · rw [if_neg ht, if_neg ht]
          exact ih { s with lis := none, source := some o } (fun o h => by cases h) ho
    | set o key v =>
      simp only [step, follows]
      by_cases hl : s.lis = some o
      · rw [if_pos hl]
        by_cases hk : key = c.name
        · subst hk
          rw [changed_at c { s with props := Function.update s.props o (Function.update (s.props o) c.name v) } o (hi o hl),
            show (if s.lis = some o ∧ c.name = c.name then [v] else []) = [v] from if_pos ⟨hl, rfl⟩]
          simp only [Function.update_self, List.cons_append, List.nil_append, news]
          by_cases hc : c.cmp v s.value = true
          · rw [if_pos hc, if_pos hc]
            exact ih { s with props := _ } hi ho
          · rw [if_neg hc, if_neg hc]
            have := ih { s with props := Function.update s.props o (Function.update (s.props o) c.name v), value := v, log := s.log ++ [v] } hi ho
            refine ⟨?_, ?_⟩
            · rw [this.1]; simp
            · rw [this.2, List.getLastD_cons]
        · rw [St.propertyChanged, if_neg hk, if_neg (fun h => hk h.2)]
          exact ih { s with props := _ } hi ho
      · rw [if_neg hl, if_neg (fun h => hl h.1)]
        exact ih { s with props := _ } hi ho
    | close =>
      have := closed_run c as { s with lis := none, isOpen := false } rfl rfl
      simp only [step, follows, news]
      rw [this.1, this.2]
      simp

theorem start_eq (c : Cfg V) (props : ℕ → String → Option V) (o : Option ℕ) (as : List (Act V)) :
    run c (start c props o) as = run c ⟨props, none, none, none, [], true⟩ (.source o :: as) := by
  rw [run_cons, step, if_pos rfl]; rfl

/-- C199: for any comparison, any truth of objects and any history, the stream fires the values that the property takes while the stream is
to follow it, each that differs from the value before it; and its value is the last one fired, `None` before that. -/
theorem C199_fires (c : Cfg V) (props : ℕ → String → Option V) (o : Option ℕ) (as : List (Act V)) :
    (run c (start c props o) as).log = news c.cmp none (follows c props none (.source o :: as)) ∧
      (run c (start c props o) as).value = (run c (start c props o) as).log.getLastD none := by
  rw [start_eq]
  have h := log_run c (.source o :: as) ⟨props, none, none, none, [], true⟩ (fun _ h => by cases h) rfl
  simp only [List.nil_append] at h
  rw [h.2, h.1]; exact ⟨rfl, rfl⟩

theorem props_run (c : Cfg V) (as : List (Act V)) (s : St V) : (run c s as).props = attrs s.props as := by
  induction as generalizing s with
  | nil => rfl
  | cons a as ih =>
    rw [run_cons, ih]
    cases a with
    | source o =>
      have : attrs s.props (.source o :: as) = attrs s.props as := rfl
      rw [step, this]
      split
      · cases o with
        | none => rfl
        | some o =>
          rw [St.sourceChanged]
          split
          · rw [(changed_frame c _ _).2.2.1]
          · rfl
      · rfl
    | set o key v =>
      simp only [step, attrs]
      split
      · rw [(changed_frame c _ _).2.2.1]
      · rfl
    | close => rfl

/-- No other object arrives, and the stream is not closed. -/
def Rest (as : List (Act V)) : Prop := ∀ a ∈ as, ∃ o key v, a = Act.set o key v

theorem open_run (c : Cfg V) (as : List (Act V)) (s : St V) (h : Act.close ∉ as) : (run c s as).isOpen = s.isOpen := by
  induction as generalizing s with
  | nil => rfl
  | cons a as ih =>
    rw [run_cons, ih _ (fun hm => h (List.mem_cons_of_mem _ hm))]
    cases a with
    | source o =>
      rw [step]; split
      · cases o with
        | none => rfl
        | some o =>
          rw [St.sourceChanged]; split
          · exact (changed_frame c _ _).2.2.2
          · rfl
      · rfl
    | set o key v =>
      simp only [step]; split
      · exact (changed_frame c _ _).2.2.2
      · rfl
    | close => exact absurd (List.mem_cons_self) h

theorem follow_rest [DecidableEq V] (c : Cfg V) (hc : c.cmp = fun a b => decide (a = b)) (o : ℕ) (bs : List (Act V)) (hb : Rest bs) (s : St V)
    (hl : s.lis = some o) (hs : s.source = some o) (hv : s.value = s.props o c.name) :
    (run c s bs).value = (run c s bs).props o c.name := by
  induction bs generalizing s with
  | nil => exact hv
  | cons a as ih =>
    obtain ⟨o', key, v, rfl⟩ := hb a List.mem_cons_self
    rw [run_cons]
    have hb' : Rest as := fun a h => hb a (List.mem_cons_of_mem _ h)
    simp only [step]
    by_cases ho : o = o'
    · subst ho
      rw [if_pos hl]
      by_cases hk : key = c.name
      · subst hk
        rw [changed_at c { s with props := Function.update s.props o (Function.update (s.props o) c.name v) } o hs, hc]
        simp only [decide_eq_true_eq]
        split
        · rename_i h; exact ih hb' { s with props := _ } hl hs h.symm
        · exact ih hb' { s with props := _, value := _, log := _ } hl hs rfl
      · rw [St.propertyChanged, if_neg hk]
        refine ih hb' { s with props := _ } hl hs ?_
        simp [hv, Ne.symm hk]
    · rw [if_neg (by rw [hl]; simpa using ho)]
      refine ih hb' { s with props := _ } hl hs ?_
      simp [hv, ho]

theorem still_rest (c : Cfg V) (bs : List (Act V)) (hb : Rest bs) (s : St V) (hl : s.lis = none) :
    (run c s bs).value = s.value ∧ (run c s bs).log = s.log := by
  induction bs generalizing s with
  | nil => exact ⟨rfl, rfl⟩
  | cons a as ih =>
    obtain ⟨o', key, v, rfl⟩ := hb a List.mem_cons_self
    rw [run_cons]
    simp only [step]
    rw [if_neg (by simp [hl])]
    exact ih (fun a h => hb a (List.mem_cons_of_mem _ h)) { s with props := _ } hl

/-- C199: after an object that was true when it arrived the stream has the present value of its property, until another one arrives; also if the
object has become false. Missing: objects that are false when they arrive. -/
theorem C199_true_partial [DecidableEq V] (name : String) (truth : (String → Option V) → Bool) (props : ℕ → String → Option V) (o : Option ℕ)
    (as bs : List (Act V)) (ha : Act.close ∉ as) (hb : Rest bs) (k : ℕ) (ht : truth (attrs props as k) = true) :
    (run ⟨fun a b => decide (a = b), name, truth⟩ (start ⟨fun a b => decide (a = b), name, truth⟩ props o) (as ++ .source (some k) :: bs)).value =
      attrs props (as ++ .source (some k) :: bs) k name := by
  generalize hcfg : (⟨fun a b => decide (a = b), name, truth⟩ : Cfg V) = c
  have hc : c.cmp = fun a b => decide (a = b) := by rw [← hcfg]
  have hn : c.name = name := by rw [← hcfg]
  have htr : c.truth = truth := by rw [← hcfg]
  have hp : (start c props o).props = props := by
    have := props_run c [.source o] ⟨props, none, none, none, [], true⟩
    exact this
  have hop : (start c props o).isOpen = true := open_run c [.source o] ⟨props, none, none, none, [], true⟩ (by simp)
  have e : attrs props (as ++ .source (some k) :: bs) = (run c (start c props o) (as ++ .source (some k) :: bs)).props := by
    rw [props_run, hp]
  rw [e, run_append, run_cons, ← hn]
  have h1 : (run c (start c props o) as).isOpen = true := by rw [open_run c as _ ha, hop]
  have h2 : (run c (start c props o) as).props = attrs props as := by rw [props_run, hp]
  generalize run c (start c props o) as = s at h1 h2
  rw [step, if_pos h1, St.sourceChanged, if_pos (by rw [h2, htr]; exact ht)]
  refine follow_rest c hc k bs hb _ ?_ ?_ ?_
  · exact (changed_frame c _ _).1
  · exact (changed_frame c _ _).2.1
  · rw [changed_at c _ k rfl, hc]
    simp only [decide_eq_true_eq]
    split
    · rename_i h; exact h.symm
    · rfl

/-- C199: an object that is false when it arrives changes nothing, and nothing that happens to objects does until another one arrives, also
if the object becomes true and its property is set. -/
theorem C199_false (c : Cfg V) (props : ℕ → String → Option V) (o : Option ℕ) (as bs : List (Act V)) (hb : Rest bs) (k : ℕ)
    (ht : c.truth (attrs props as k) = false) :
    (run c (start c props o) (as ++ .source (some k) :: bs)).value = (run c (start c props o) as).value ∧
      (run c (start c props o) (as ++ .source (some k) :: bs)).log = (run c (start c props o) as).log := by
  have hp : (run c (start c props o) as).props = attrs props as := by
    rw [props_run]; congr 1
    exact props_run c [.source o] ⟨props, none, none, none, [], true⟩
  rw [run_append, run_cons]
  by_cases ho : (run c (start c props o) as).isOpen = true
  · rw [step, if_pos ho, St.sourceChanged, if_neg (by rw [hp]; simp [ht])]
    exact still_rest c bs hb _ rfl
  · rw [step, if_neg ho]
    refine still_rest c bs hb _ ?_
    have : ∀ (as : List (Act V)) (s : St V), (s.isOpen = false → s.lis = none) → (run c s as).isOpen = false → (run c s as).lis = none := by
      intro as
      induction as with
      | nil => intro s h h'; exact h h'
      | cons a as ih =>
        intro s h
        rw [run_cons]
        refine ih _ ?_
        cases a with
        | source o =>
          intro h'
          have hs : s.isOpen = false := by
            have := open_run c [.source o] s (by simp)
            rw [← this]; exact h'
          rw [step, if_neg (by simp [hs])]; exact h hs
        | set o key v =>
          intro h'
          have hs : s.isOpen = false := by
            have := open_run c [.set o key v] s (by simp)
            rw [← this]; exact h'
          simp only [step]
          split
          · rw [(changed_frame c _ _).1]; exact h hs
          · exact h hs
        | close => intro _; rfl
    refine this as _ ?_ (by simpa using ho)
    intro h
    have h' := open_run c [.source o] ⟨props, none, none, none, [], true⟩ (by simp)
    exact absurd ((show (start c props o).isOpen = true from h').symm.trans h) (by simp)

/-! ### Cases -/

/-- Objects with a count, false if it is zero. -/
def exCfg : Cfg ℕ := ⟨fun a b => decide (a = b), "x", fun a => a "count" != some 0⟩

/-- Object 0 has one element and `x` is 5; object 1 is empty and `x` is 6. -/
def exProps : ℕ → String → Option ℕ
  | 0, "count" => some 1
  | 0, "x" => some 5
  | 1, "count" => some 0
  | 1, "x" => some 6
  | _, _ => none

/-- Object 0 becomes empty: it is still followed. Then it arrives again: it is not. -/
example : (run exCfg (start exCfg exProps (some 0)) [.set 0 "count" (some 0), .set 0 "x" (some 7), .source (some 0), .set 0 "x" (some 8)]).log =
    [some 5, some 7] := by decide

example : (run exCfg (start exCfg exProps (some 0)) [.set 1 "count" (some 2), .source (some 1), .set 1 "x" (some 8), .set 0 "x" (some 9)]).log =
    [some 5, some 6, some 8] := by decide

/-- C199: the source is changed to an empty object; then the object has an element and its property is set: the stream has the value of the
object before. -/
theorem C199_counterexample :
    (run exCfg (start exCfg exProps (some 0)) [.source (some 1), .set 1 "count" (some 1), .set 1 "x" (some 8)]).value = some 5 ∧
    attrs exProps [.source (some 1), .set 1 "count" (some 1), .set 1 "x" (some 8)] 1 "x" = some 8 := by decide

/-- C199: a stream made on an object that is empty has no value, whatever is set later. -/
theorem C199_counterexample_made : (run exCfg (start exCfg exProps (some 1)) [.set 1 "count" (some 1), .set 1 "x" (some 8)]).log = [] := by decide

end Verif.Stream.FalseSource
