import Verif.Proofs.ThreadsProof

/-!
# C71: calls from several threads, and interrupted calls

A schedule is any finite sequence of events: thread `t` makes its next access to an object, or the rest of the program creates
an object or overwrites one.  Threads that make no further step have been interrupted (KeyboardInterrupt, a killed thread).
-/

namespace DTW
open F64

variable {A : Arith}

/-- What thread `t` has to show: nothing yet, an exception, or the contents of the object it returned. -/
def Sys.outcome (s : Sys) (t : Nat) : Option (Except Err (Option Result)) :=
  match s.threads[t]? with
  | some (.ret (.ok r)) => some (.ok (r.deref s.heap))
  | some (.ret (.error e)) => some (.error e)
  | _ => none

/-- All objects the calls refer to exist when the threads start. -/
def ArgsExist (h : Heap) (cs : List Call) : Prop := ∀ c ∈ cs, ∀ a : Nat, a ∈ c.refs → a < h.length

/-- The rest of the program overwrites only objects that existed when the threads started (it has no reference to the
intermediate objects of a call). -/
def OldOnly (h : Heap) (evs : List Event) : Prop := ∀ (a : Nat) o, Event.mutate a o ∈ evs → a < h.length

/-- No argument of the call is overwritten meanwhile. -/
def NoRace (c : Call) (evs : List Event) : Prop := ∀ a o, Event.mutate a o ∈ evs → a ∉ c.refs

/-- **C71** Whatever the schedule, whatever the other threads do (including racing on their own arguments): a call whose
arguments are not overwritten while it runs ends, if it has ended, exactly as if it had run alone - with the value `dtw` has
on its arguments - and its result stays what it is while the other threads go on. -/
theorem C71_any_schedule {h : Heap} {cs : List Call} {evs : List Event} (hex : ArgsExist h cs) (hold : OldOnly h evs)
    {t : Nat} {c : Call} {a : Args} (hc : cs[t]? = some c) (ha : c.deref h = some a) (hno : NoRace c evs)
    {o : Except Err (Option Result)} (ho : (runSchedule (startCalls A h cs) evs).outcome t = some o) :
    o = (dtw A a).map some := by
  obtain ⟨σ, inv⟩ := schedule_inv (A := A) hex evs hold
  obtain ⟨q, hq, ⟨p, hs, h1, h2, h3⟩⟩ := inv.thread t c hc
  have hrun := Prog.run_steps (stepsOf t evs) (pdtw A c) h
  rw [h3 hno, run_pdtw] at hrun
  have hout := C46_function_of_values (A := A) ha
  unfold Call.outcome at hout
  rw [← hrun] at hout
  rw [← hout]
  unfold Sys.outcome at ho
  rw [hq] at ho
  cases h1 with
  | @ok _ r s hR =>
    simp only [Option.some.injEq] at ho
    rw [← ho, deref_twin h2 hR]
    rfl
  | err =>
    simp only [Option.some.injEq] at ho
    rw [← ho]
    rfl
  | alloc _ => cases ho
  | base _ _ => cases ho
  | own _ _ => cases ho
  | write _ _ => cases ho

/-- **C71** No schedule can keep a call from ending but by not giving it steps: there is a number of steps, depending on the
call and its arguments only, after which it has ended, whatever the other threads do in between. -/
theorem C71_finishes (A : Arith) (h : Heap) (c : Call) :
    ∃ n, ∀ (cs : List Call) (evs : List Event) (t : Nat), ArgsExist h cs → OldOnly h evs → cs[t]? = some c → NoRace c evs →
      n ≤ stepsOf t evs → ((runSchedule (startCalls A h cs) evs).outcome t).isSome := by
  obtain ⟨n, hn⟩ := (pdtw A c).finishes h
  refine ⟨n, fun cs evs t hex hold hc hno hle => ?_⟩
  obtain ⟨σ, inv⟩ := schedule_inv (A := A) hex evs hold
  obtain ⟨q, hq, ⟨p, hs, h1, h2, h3⟩⟩ := inv.thread t c hc
  have := hn _ hle
  rw [h3 hno] at this
  unfold Sys.outcome
  rw [hq]
  cases h1 with
  | ok _ => rfl
  | err => rfl
  | alloc _ => exact absurd rfl this
  | base _ _ => exact absurd rfl this
  | own _ _ => exact absurd rfl this
  | write _ _ => exact absurd rfl this

/-- **C71** At every moment of every schedule - in the middle of any number of calls, or when they have been abandoned there -
every object that existed at the start has the contents it had, unless the rest of the program overwrote it. -/
theorem C71_interrupted {h : Heap} {cs : List Call} {evs : List Event} (hex : ArgsExist h cs) (hold : OldOnly h evs)
    (b : Nat) (hb : b < h.length) (hno : ∀ o, Event.mutate b o ∉ evs) :
    (runSchedule (startCalls A h cs) evs).heap[b]? = h[b]? := by
  obtain ⟨σ, inv⟩ := schedule_inv (A := A) hex evs hold
  exact inv.kept b hb hno

/-- **C71** Hence a call made after others were interrupted anywhere gives what it would have given before. -/
theorem C71_retry {h : Heap} {cs : List Call} {evs : List Event} (hex : ArgsExist h cs) (hold : OldOnly h evs) {c : Call}
    {a : Args} (ha : c.deref h = some a) (hno : NoRace c evs) :
    c.outcome A (runSchedule (startCalls A h cs) evs).heap = (dtw A a).map some := by
  refine C46_function_of_values ?_
  rw [← ha]
  exact Call.deref_congr fun b hb => C71_interrupted hex hold b (Call.refs_lt ha b hb) fun o ho => hno b o ho hb

/-- The arrays of a result that are its own. -/
def HResult.arrays (r : HResult) : List Addr :=
  r.index1.toList ++ r.index2.toList ++ r.index1s.toList ++ r.index2s.toList ++ r.stepsTaken.toList ++
    r.costMatrix.toList ++ r.directionMatrix.toList ++ r.localCostMatrix.toList

theorem optTwin_mem {n0 : Nat} {σ : List Nat} {a b : Option Addr} (h : Indep.OptTwin n0 σ a b) : ∀ x ∈ b.toList, x ∈ σ := by
  cases a <;> cases b <;> simp only [Indep.OptTwin] at h
  · simp
  · rintro x hx
    simp only [Option.toList_some, List.mem_cons, List.not_mem_nil, or_false] at hx
    subst hx
    obtain ⟨i, -, hi⟩ := h
    exact List.mem_of_getElem? hi

theorem resTwin_mem {n0 : Nat} {B : Nat → Prop} {σ : List Nat} {r s : HResult} (h : Indep.ResTwin n0 B σ r s) :
    ∀ x ∈ s.arrays, x ∈ σ := by
  intro x hx
  simp only [HResult.arrays, List.mem_append] at hx
  rcases hx with ((((((hx | hx) | hx) | hx) | hx) | hx) | hx) | hx
  · exact optTwin_mem h.index1 x hx
  · exact optTwin_mem h.index2 x hx
  · exact optTwin_mem h.index1s x hx
  · exact optTwin_mem h.index2s x hx
  · exact optTwin_mem h.stepsTaken x hx
  · exact optTwin_mem h.costMatrix x hx
  · exact optTwin_mem h.directionMatrix x hx
  · exact optTwin_mem h.localCostMatrix x hx

/-- **C71** The results of two threads share none of their own arrays, and these are no object that existed before: what one
thread does with its result afterwards cannot disturb the other. -/
theorem C71_results_disjoint {h : Heap} {cs : List Call} {evs : List Event} (hex : ArgsExist h cs) (hold : OldOnly h evs)
    {t u : Nat} (htu : t ≠ u) {r s : HResult}
    (hr : (runSchedule (startCalls A h cs) evs).threads[t]? = some (.ret (.ok r)))
    (hs : (runSchedule (startCalls A h cs) evs).threads[u]? = some (.ret (.ok s))) :
    ∀ b ∈ r.arrays, b ∉ s.arrays ∧ h.length ≤ b := by
  obtain ⟨σ, inv⟩ := schedule_inv (A := A) hex evs hold
  have key : ∀ (t : Nat) (r : HResult), (runSchedule (startCalls A h cs) evs).threads[t]? = some (.ret (.ok r)) →
      ∀ b ∈ r.arrays, b ∈ σ t := by
    intro t r hr
    have htl := (List.getElem?_eq_some_iff.1 hr).1
    rw [inv.len] at htl
    obtain ⟨q, hq, ⟨p, hs, h1, h2, h3⟩⟩ := inv.thread t cs[t] (List.getElem?_eq_getElem htl)
    rw [hr] at hq
    cases hq
    cases h1 with
    | ok hR => exact resTwin_mem hR
  intro b hb
  have hbt := key t r hr b hb
  exact ⟨fun hb' => inv.disjoint t u htu b hbt (key u s hs b hb'), (inv.fresh t b hbt).1⟩

/-! ### A session with two threads -/

namespace Session

/-- `dtw(m3, step_pattern="asymmetric", open_begin=True, open_end=True)` -/
def openCall : Call :=
  { x := x0
    stepPattern := .name "asymmetric"
    openBegin := true
    openEnd := true
    keepInternals := true }

/-- Two threads, step about, while the rest of the program creates objects. -/
def alternate (n : Nat) : List Event := (List.range n).flatMap fun _ => [.step 0, .create m3, .step 1]

/-- The system after that. -/
def duo (n : Nat) : Sys := runSchedule (startCalls Arith.exact h0 [plainCall, openCall]) (alternate n)

/-- The distance a thread reports. -/
def threadDist (s : Sys) (t : Nat) : Option F64 :=
  match s.outcome t with
  | some (.ok (some r)) => some r.distance
  | _ => none

end Session

/-- The hypotheses are met, and such runs end: two different calls on one matrix, interleaved; after 10 rounds neither has
ended, after 60 both have. -/
example : ArgsExist Session.h0 [Session.plainCall, Session.openCall] ∧ OldOnly Session.h0 (Session.alternate 60) ∧
    NoRace Session.plainCall (Session.alternate 60) ∧
    (Session.plainCall.deref Session.h0).isSome = true ∧ (Session.openCall.deref Session.h0).isSome = true := by
  refine ⟨?_, ?_, ?_, by decide +kernel, by decide +kernel⟩
  · have : ∀ c ∈ [Session.plainCall, Session.openCall], ∀ a ∈ c.refs, a < Session.h0.length := by
      intro c hc
      simp only [List.mem_cons, List.not_mem_nil, or_false] at hc
      rcases hc with rfl | rfl <;> decide +kernel
    exact this
  · intro a o ha
    simp [Session.alternate] at ha
  · intro a o ha
    simp [Session.alternate] at ha

example : Session.threadDist (Session.duo 10) 0 = none ∧ Session.threadDist (Session.duo 10) 1 = none ∧
    Session.threadDist (Session.duo 60) 0 = some (fin 6) ∧
    Session.threadDist (Session.duo 60) 1 = Session.dist Session.h0 Session.openCall ∧
    (Session.threadDist (Session.duo 60) 1).isSome = true := by decide +kernel

/-- **C71** (why the hypothesis `NoRace` is there) Overwriting the dict of window arguments while the call runs changes its
outcome: the call that would have failed succeeds. -/
theorem C71_race_matters :
    Session.err Session.h0 Session.bandCall = some .typeError ∧
    Session.threadDist (runSchedule (startCalls Arith.exact Session.h0 [Session.bandCall])
      ([.step 0, .step 0, .mutate defaultWindowArgs (.dict [("window_size", 0)])] ++ List.replicate 60 (.step 0))) 0 =
        some (fin 10) := by
  constructor <;> decide +kernel

end DTW
