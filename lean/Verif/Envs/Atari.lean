import Verif.Basic
import Verif.Envs.Wrappers
import Verif.Envs.FrameStack
import Mathlib.Algebra.Order.Ring.Rat
import Mathlib.Tactic.Linarith

/-!
# The Atari environment with all its wrappers (C111)

`make_atari` and `wrap_deepmind` put the wrappers of `Verif.Envs.Wrappers` on top of each other.  Here they are composed: every wrapper
calls the one below, and the lowest one calls the game, whose calls are recorded.
-/

namespace Pfrl.Envs.Atari

open Wrap

variable {S A O W : Type}

/-! ## Model -/

/-- The game, and the arguments of `make_atari` and `wrap_deepmind`, `pfrl/wrappers/atari_wrappers.py:288-325`.  `warp` is what
`WarpFrame` and, with `scale`, `ScaledFloatFrame` do to a frame; `draws` are the numbers of no-ops drawn; `fire` are the actions 1 and 2
if `fire_reset` is given and the game has them.  `max_frames` is positive (without limit the wrapper is left out), frames are stacked,
and `flicker` is not used. -/
structure Cfg (S A O W : Type) where
  g : Game S A O ℚ
  lives : S → ℤ
  noop : A
  limit : ℕ
  draws : ℕ → ℕ
  warp : O → W
  episodeLife : Bool
  clip : Bool
  fire : Option (A × A)

/-- The state of the game, its calls so far, and the attributes of the wrappers. -/
structure St (S A O W : Type) where
  s : S
  log : List (Rec S A O ℚ)
  elapsed : Option ℕ
  nDraws : ℕ
  buf : O × O
  life : Life
  frames : List W

/-- After the constructors; `zero` is the black frame. -/
def St.init (s : S) (zero : O) : St S A O W := ⟨s, [], none, 0, (zero, zero), Life.init, []⟩

/-- `ContinuingTimeLimit.step`, `pfrl/wrappers/continuing_time_limit.py:27-37`. -/
def tlStep (c : Cfg S A O W) (st : St S A O W) (a : A) : Except PyErr (St S A O W × Out O ℚ) :=
  match st.elapsed with
  | none => .error .assertionError
  | some e =>
    let out := (c.g.step st.s a).2
    .ok ({ st with s := (c.g.step st.s a).1, log := st.log ++ [c.g.call st.s (.step a)], elapsed := some (e + 1) },
      { out with needsReset := if c.limit ≤ e + 1 then true else out.needsReset })

/-- `ContinuingTimeLimit.reset`, `continuing_time_limit.py:39-41`. -/
def tlReset (c : Cfg S A O W) (st : St S A O W) : St S A O W × O :=
  ({ st with s := (c.g.reset st.s).1, log := st.log ++ [c.g.call st.s .reset], elapsed := some 0 }, (c.g.reset st.s).2)

/-- The loop of `NoopResetEnv.reset`, `atari_wrappers.py:47-50`. -/
def noopLoop (c : Cfg S A O W) : ℕ → St S A O W → O → Except PyErr (St S A O W × O)
  | 0, st, o => .ok (st, o)
  | n + 1, st, _ =>
    match tlStep c st c.noop with
    | .error e => .error e
    | .ok (st, out) =>
      if out.ended then noopLoop c n (tlReset c st).1 (tlReset c st).2 else noopLoop c n st out.obs

/-- `NoopResetEnv.reset`, `atari_wrappers.py:35-51`. -/
def noopReset (c : Cfg S A O W) (st : St S A O W) : Except PyErr (St S A O W × O) :=
  let r := tlReset c st
  if c.draws st.nDraws = 0 then .error .assertionError
  else noopLoop c (c.draws st.nDraws) { r.1 with nDraws := st.nDraws + 1 } r.2

/-- The loop of `MaxAndSkipEnv.step` with `skip = 4`, `atari_wrappers.py:130-138`, from iteration `i` with `fuel` iterations to go. -/
def skipLoop (c : Cfg S A O W) (a : A) : ℕ → ℕ → St S A O W → ℚ → Except PyErr (St S A O W × ℚ × Out O ℚ)
  | 0, _, _, _ => .error .unboundLocal
  | fuel + 1, i, st, total =>
    match tlStep c st a with
    | .error e => .error e
    | .ok (st, out) =>
      let st := if i + 2 = 4 then { st with buf := (out.obs, st.buf.2) } else st
      let st := if i + 1 = 4 then { st with buf := (st.buf.1, out.obs) } else st
      if out.ended || fuel == 0 then .ok (st, total + out.reward, out) else skipLoop c a fuel (i + 1) st (total + out.reward)

/-- `MaxAndSkipEnv.step`, `atari_wrappers.py:126-143`. -/
def skipStep [Max O] (c : Cfg S A O W) (st : St S A O W) (a : A) : Except PyErr (St S A O W × Out O ℚ) :=
  match skipLoop c a 4 0 st 0 with
  | .error e => .error e
  | .ok (st, total, out) => .ok (st, ⟨max st.buf.1 st.buf.2, total, out.done, out.needsReset⟩)

/-- `EpisodicLifeEnv.step`, `atari_wrappers.py:88-101`, if this wrapper is used. -/
def lifeStep [Max O] (c : Cfg S A O W) (st : St S A O W) (a : A) : Except PyErr (St S A O W × Out O ℚ) :=
  if c.episodeLife then
    match skipStep c st a with
    | .error e => .error e
    | .ok (st', out) =>
      let n := c.lives st'.s
      .ok ({ st' with life := ⟨n, out.done || out.needsReset⟩ },
        { out with done := if n < st.life.lives ∧ n > 0 then true else out.done })
  else skipStep c st a

/-- `EpisodicLifeEnv.reset`, `atari_wrappers.py:103-115`, if this wrapper is used. -/
def lifeReset [Max O] (c : Cfg S A O W) (st : St S A O W) : Except PyErr (St S A O W × O) :=
  if c.episodeLife then
    if st.life.needsRealReset then
      match noopReset c st with
      | .error e => .error e
      | .ok (st, o) => .ok ({ st with life := ⟨c.lives st.s, st.life.needsRealReset⟩ }, o)
    else
      match skipStep c st c.noop with
      | .error e => .error e
      | .ok (st, out) => .ok ({ st with life := ⟨c.lives st.s, st.life.needsRealReset⟩ }, out.obs)
  else noopReset c st

/-- A step of `FireResetEnv.reset` and the reset it makes if the episode ends, `atari_wrappers.py:66-68` and `69-71`. -/
def fireOne [Max O] (c : Cfg S A O W) (st : St S A O W) (a : A) : Except PyErr (St S A O W × O) :=
  match lifeStep c st a with
  | .error e => .error e
  | .ok (st, out) =>
    if out.ended then
      match lifeReset c st with
      | .error e => .error e
      | .ok (st, _) => .ok (st, out.obs)
    else .ok (st, out.obs)

/-- `FireResetEnv.reset`, `atari_wrappers.py:64-72`, if this wrapper is used. -/
def fireReset [Max O] (c : Cfg S A O W) (st : St S A O W) : Except PyErr (St S A O W × O) :=
  match lifeReset c st with
  | .error e => .error e
  | .ok (st, o) =>
    match c.fire with
    | none => .ok (st, o)
    | some (a1, a2) =>
      match fireOne c st a1 with
      | .error e => .error e
      | .ok (st, _) => fireOne c st a2

/-- `np.sign`, `ClipRewardEnv.reward`, `atari_wrappers.py:153-155`, if this wrapper is used. -/
def clipReward (clip : Bool) (r : ℚ) : ℚ := if clip then (if r < 0 then -1 else if 0 < r then 1 else 0) else r

/-- `step` of the whole environment: `FrameStack.step`, `atari_wrappers.py:215-222`, on `ClipRewardEnv` on `WarpFrame`. -/
def step [Max O] (c : Cfg S A O W) (st : St S A O W) (a : A) : Except PyErr (St S A O W × Out (List W) ℚ) :=
  match lifeStep c st a with
  | .error e => .error e
  | .ok (st, out) =>
    let frames := Frames.push 4 st.frames (c.warp out.obs)
    if frames.length = 4 then .ok ({ st with frames := frames }, ⟨frames, clipReward c.clip out.reward, out.done, out.needsReset⟩)
    else .error .assertionError

/-- `reset` of the whole environment: `FrameStack.reset`, `atari_wrappers.py:209-213` and `220-222`. -/
def reset [Max O] (c : Cfg S A O W) (st : St S A O W) : Except PyErr (St S A O W × List W) :=
  match fireReset c st with
  | .error e => .error e
  | .ok (st, o) =>
    let frames := Frames.fill 4 4 st.frames (c.warp o)
    if frames.length = 4 then .ok ({ st with frames := frames }, frames) else .error .assertionError

/-- A call of the agent.  An exception leaves the state as it was: the only one is that of a step before the first reset, which comes
from the lowest wrapper and changes nothing. -/
def call [Max O] (c : Cfg S A O W) (st : St S A O W) : Op A → St S A O W × Ret (List W) ℚ
  | .step a =>
    match step c st a with
    | .error _ => (st, .refused)
    | .ok (st, out) => (st, .stepped out)
  | .reset =>
    match reset c st with
    | .error _ => (st, .refused)
    | .ok (st, o) => (st, .obs o)

/-- The calls of the agent, each with what it returns and the state afterwards. -/
def run [Max O] (c : Cfg S A O W) : St S A O W → List (Op A) → List (St S A O W × Ret (List W) ℚ)
  | _, [] => []
  | st, op :: ops => call c st op :: run c (call c st op).1 ops

/-! ## Specification -/

/-- The number of frames since the game was last reset. -/
def Spec.since (log : List (Rec S A O ℚ)) : Option ℕ := Wrap.Spec.sinceReset (log.map Rec.call)

/-- After these calls on the game, its last frame ended the game, or reached the limit of frames. -/
def Spec.Over (limit : ℕ) (log : List (Rec S A O ℚ)) : Prop :=
  ∃ r, log.getLast? = some r ∧ (Wrap.Spec.Ended r ∨ ∃ n, Spec.since log = some n ∧ limit ≤ n)

/-- `recs` are frames with action `a`, at least one and at most four, that follow `log`; only after the last one the game may be over,
and it is if there are fewer than four. -/
def Spec.Skipped (limit : ℕ) (log : List (Rec S A O ℚ)) (a : A) (recs : List (Rec S A O ℚ)) : Prop :=
  1 ≤ recs.length ∧ recs.length ≤ 4 ∧ (∀ r ∈ recs, r.call = .step a) ∧
  (∀ j, 0 < j → j < recs.length → ¬ Spec.Over limit (log ++ recs.take j)) ∧
  (recs.length < 4 → Spec.Over limit (log ++ recs))

/-- What a frame returned. -/
def Spec.out? (r : Rec S A O ℚ) : Option (Out O ℚ) :=
  match r.ret with
  | .stepped o => some o
  | _ => none

/-! ## Lemmas -/

/-- The attributes agree with the calls. -/
structure Core (c : Cfg S A O W) (s0 : S) (st : St S A O W) : Prop where
  chain : Wrap.Spec.Chain c.g s0 st.log
  final : finalState s0 st.log = st.s
  elapsed : st.elapsed = Spec.since st.log

theorem since_step (log : List (Rec S A O ℚ)) (r : Rec S A O ℚ) {a : A} (h : r.call = .step a) :
    Spec.since (log ++ [r]) = (Spec.since log).map (· + 1) := by
  simp [Spec.since, Wrap.Spec.sinceReset, h]

theorem since_reset (log : List (Rec S A O ℚ)) (r : Rec S A O ℚ) (h : r.call = .reset) : Spec.since (log ++ [r]) = some 0 := by
  simp [Spec.since, Wrap.Spec.sinceReset, h]

theorem tlStep_ok {c : Cfg S A O W} {s0 : S} {st : St S A O W} (h : Core c s0 st) {e : ℕ} (he : st.elapsed = some e) (a : A) :
    ∃ st' out, tlStep c st a = .ok (st', out) ∧ Core c s0 st' ∧ st'.log = st.log ++ [c.g.call st.s (.step a)] ∧
      st'.elapsed = some (e + 1) ∧ st'.nDraws = st.nDraws ∧ st'.buf = st.buf ∧ st'.life = st.life ∧ st'.frames = st.frames ∧
      out = ⟨(c.g.step st.s a).2.obs, (c.g.step st.s a).2.reward, (c.g.step st.s a).2.done,
        (c.g.step st.s a).2.needsReset || decide (c.limit ≤ e + 1)⟩ ∧
      (out.ended = true ↔ Spec.Over c.limit st'.log) := by
  have hsince : Spec.since (st.log ++ [c.g.call st.s (.step a)]) = some (e + 1) := by
    rw [since_step _ _ rfl, ← h.elapsed, he]
    rfl
  refine ⟨{ st with s := (c.g.step st.s a).1, log := st.log ++ [c.g.call st.s (.step a)], elapsed := some (e + 1) }, _,
    by rw [tlStep, he], ⟨?_, ?_, hsince.symm⟩, rfl, rfl, rfl, rfl, rfl, rfl, ?_, ?_⟩
  · exact chain_append h.chain (by rw [h.final]; exact chain_single _ _ _)
  · show finalState s0 (st.log ++ [c.g.call st.s (.step a)]) = _
    rw [finalState_append]
    rfl
  · by_cases hl : c.limit ≤ e + 1 <;> simp [hl]
  · have hsince' := hsince
    simp only [Game.call] at hsince'
    simp only [Out.ended, Spec.Over, List.getLast?_append, List.getLast?_singleton, Option.some_or, Option.some.injEq,
      exists_eq_left', Wrap.Spec.Ended, Game.call, Ret.stepped.injEq, Bool.or_eq_true, hsince']
    by_cases hl : c.limit ≤ e + 1 <;> simp [hl]

theorem tlReset_ok {c : Cfg S A O W} {s0 : S} {st : St S A O W} (h : Core c s0 st) :
    Core c s0 (tlReset c st).1 ∧ (tlReset c st).1.log = st.log ++ [c.g.call st.s .reset] ∧ (tlReset c st).1.elapsed = some 0 := by
  refine ⟨⟨?_, ?_, ?_⟩, rfl, rfl⟩
  · exact chain_append h.chain (by rw [h.final]; exact chain_single _ _ _)
  · show finalState s0 (st.log ++ [c.g.call st.s .reset]) = _
    rw [finalState_append]
    rfl
  · exact (since_reset st.log (c.g.call st.s .reset) rfl).symm

theorem core_congr {c : Cfg S A O W} {s0 : S} {st st' : St S A O W} (h : Core c s0 st) (h1 : st'.s = st.s) (h2 : st'.log = st.log)
    (h3 : st'.elapsed = st.elapsed) : Core c s0 st' := ⟨h2 ▸ h.chain, by rw [h1, h2]; exact h.final, by rw [h2, h3]; exact h.elapsed⟩

/-- The sum of the rewards of these frames. -/
def Spec.total (recs : List (Rec S A O ℚ)) : ℚ := (recs.map fun r => ((Spec.out? r).map Out.reward).getD 0).sum

theorem skipLoop_ok {c : Cfg S A O W} {s0 : S} (a : A) : ∀ (fuel i : ℕ) (st : St S A O W) (total : ℚ) (e : ℕ), i + fuel + 1 = 4 →
    Core c s0 st → st.elapsed = some e → ∃ (st' : St S A O W) (out : Out O ℚ) (recs : List (Rec S A O ℚ)) (last : Out O ℚ),
      skipLoop c a (fuel + 1) i st total = .ok (st', total + Spec.total recs, out) ∧ Core c s0 st' ∧ st'.log = st.log ++ recs ∧
      st'.elapsed = some (e + recs.length) ∧ st'.nDraws = st.nDraws ∧ st'.life = st.life ∧ st'.frames = st.frames ∧
      1 ≤ recs.length ∧ recs.length ≤ fuel + 1 ∧ (∀ r ∈ recs, r.call = .step a) ∧
      (∀ j, 0 < j → j < recs.length → ¬ Spec.Over c.limit (st.log ++ recs.take j)) ∧
      (recs.length < fuel + 1 → Spec.Over c.limit (st.log ++ recs)) ∧
      (recs.getLast?.bind Spec.out?) = some last ∧ out.done = last.done ∧
      out.needsReset = (last.needsReset || decide (c.limit ≤ e + recs.length)) ∧
      (out.ended = true ↔ Spec.Over c.limit st'.log) ∧
      (recs.length = fuel + 1 → (∀ r o, recs[fuel]? = some r → Spec.out? r = some o → st'.buf.2 = o.obs) ∧
        (fuel = 0 → st'.buf.1 = st.buf.1) ∧
        ∀ f, fuel = f + 1 → ∀ r o, recs[f]? = some r → Spec.out? r = some o → st'.buf.1 = o.obs)
  | fuel, i, st, total, e, hi, h, he => by
    obtain ⟨st1, out, k1, k2, k3, k4, k5, k6, k7, k8, k9, k10⟩ := tlStep_ok h he a
    have hout : Spec.out? (c.g.call st.s (.step a)) = some (c.g.step st.s a).2 := rfl
    generalize hst2 : (if i + 2 = 4 then { st1 with buf := (out.obs, st1.buf.2) } else st1) = st2
    generalize hst3 : (if i + 1 = 4 then { st2 with buf := (st2.buf.1, out.obs) } else st2) = st3
    have e2 : st2.s = st1.s ∧ st2.log = st1.log ∧ st2.elapsed = st1.elapsed ∧ st2.nDraws = st1.nDraws ∧ st2.life = st1.life ∧ st2.frames = st1.frames := by
      rw [← hst2]; split <;> exact ⟨rfl, rfl, rfl, rfl, rfl, rfl⟩
    have e3 : st3.s = st2.s ∧ st3.log = st2.log ∧ st3.elapsed = st2.elapsed ∧ st3.nDraws = st2.nDraws ∧ st3.life = st2.life ∧ st3.frames = st2.frames := by
      rw [← hst3]; split <;> exact ⟨rfl, rfl, rfl, rfl, rfl, rfl⟩
    have c3 : Core c s0 st3 := core_congr k2 (e3.1.trans e2.1) (e3.2.1.trans e2.2.1) (e3.2.2.1.trans e2.2.2.1)
    have htot : Spec.total [c.g.call st.s (.step a)] = out.reward := by
      rw [k9]; simp [Spec.total, hout]
    have hlog : st3.log = st.log ++ [c.g.call st.s (.step a)] := by rw [e3.2.1, e2.2.1, k3]
    have hbuf3 : i + 1 = 4 → st3.buf.2 = out.obs := by intro hh; rw [← hst3, if_pos hh]
    have hbuf31 : st3.buf.1 = st2.buf.1 := by rw [← hst3]; split <;> rfl
    have hbuf2 : i + 2 = 4 → st2.buf.1 = out.obs := by intro hh; rw [← hst2, if_pos hh]
    have hbuf21 : i + 2 ≠ 4 → st2.buf.1 = st.buf.1 := by intro hh; rw [← hst2, if_neg hh, k6]
    unfold skipLoop
    rw [k1]
    simp only [hst2, hst3]
    by_cases hend : (out.ended || fuel == 0) = true
    · rw [if_pos hend]
      refine ⟨st3, out, [c.g.call st.s (.step a)], (c.g.step st.s a).2, by rw [htot], c3, hlog, ?_, ?_, ?_, ?_, by simp, by simp, ?_, ?_, ?_, ?_, ?_, ?_, ?_, ?_⟩
      · rw [e3.2.2.1, e2.2.2.1, k4]; rfl
      · rw [e3.2.2.2.1, e2.2.2.2.1, k5]
      · rw [e3.2.2.2.2.1, e2.2.2.2.2.1, k7]
      · rw [e3.2.2.2.2.2, e2.2.2.2.2.2, k8]
      · simp [Game.call]
      · intro j h1 h2
        simp at h2
        omega
      · intro hlt
        rw [Bool.or_eq_true] at hend
        have : out.ended = true := hend.resolve_right (by simp at hlt ⊢; omega)
        rw [← hlog, e3.2.1, e2.2.1]
        exact k10.1 this
      · simp [hout]
      · rw [k9]
      · rw [k9]; rfl
      · rw [k10, e3.2.1, e2.2.1]
      · intro hlen
        simp at hlen
        subst hlen
        refine ⟨?_, ?_, fun f hf => by omega⟩
        · intro r o hr ho
          simp at hr
          subst hr
          rw [hout] at ho
          cases ho
          rw [hbuf3 (by omega), k9]
        · intro _
          rw [hbuf31, hbuf21 (by omega)]
    · rw [if_neg hend]
      simp only [Bool.or_eq_true, not_or, beq_iff_eq] at hend
      obtain ⟨fuel, rfl⟩ := Nat.exists_eq_succ_of_ne_zero hend.2
      obtain ⟨st', out', recs, last, i1, i2, i3, i4, i5, i6, i7, i8, i9, i10, i11, i12, i13, i14, i15, i16, i17⟩ :=
        skipLoop_ok a fuel (i + 1) st3 (total + out.reward) (e + 1) (by omega) c3 (by rw [e3.2.2.1, e2.2.2.1, k4])
      have happ : ∀ l, st3.log ++ l = st.log ++ (c.g.call st.s (.step a) :: l) := by intro l; rw [hlog]; simp
      refine ⟨st', out', c.g.call st.s (.step a) :: recs, last, ?_, i2, by rw [i3, happ], ?_, ?_, ?_, ?_, by simp, by simp; omega, ?_, ?_, ?_, ?_, i14, ?_, i16, ?_⟩
      · rw [i1, ← htot]
        simp [Spec.total, add_assoc]
      · rw [i4, List.length_cons]; congr 1; omega
      · rw [i5, e3.2.2.2.1, e2.2.2.2.1, k5]
      · rw [i6, e3.2.2.2.2.1, e2.2.2.2.2.1, k7]
      · rw [i7, e3.2.2.2.2.2, e2.2.2.2.2.2, k8]
      · intro r hr
        rcases List.mem_cons.1 hr with rfl | hr
        · rfl
        · exact i10 r hr
      · intro j h1 h2
        obtain ⟨j, rfl⟩ := Nat.exists_eq_succ_of_ne_zero h1.ne'
        simp only [List.length_cons] at h2
        rw [List.take_succ_cons, ← happ]
        rcases Nat.eq_zero_or_pos j with rfl | hj
        · simp only [List.take_zero, List.append_nil]
          rw [e3.2.1, e2.2.1, ← k10]
          exact hend.1
        · exact i11 j hj (by omega)
      · intro hlt
        simp only [List.length_cons] at hlt
        rw [← happ]
        exact i12 (by omega)
      · cases recs with
        | nil => simp at i8
        | cons r recs => simpa [List.getLast?_cons_cons] using i13
      · rw [i15, List.length_cons]
        congr 2
        simp only [eq_iff_iff]
        rw [show e + 1 + recs.length = e + (recs.length + 1) by omega]
      · intro hlen
        simp only [List.length_cons] at hlen
        obtain ⟨j1, j2, j3⟩ := i17 (by omega)
        refine ⟨fun r o hr ho => j1 r o (by simpa using hr) ho, fun h => by omega, ?_⟩
        intro f hf r o hr ho
        have hff : f = fuel := by omega
        subst hff
        cases f with
        | zero =>
          simp at hr
          subst hr
          rw [hout] at ho
          cases ho
          rw [j2 rfl, hbuf31, hbuf2 (by omega), k9]
        | succ f => exact j3 f rfl r o (by simpa using hr) ho

/-- What a step of `MaxAndSkipEnv` does. -/
structure Skips [Max O] (c : Cfg S A O W) (s0 : S) (st st' : St S A O W) (a : A) (recs : List (Rec S A O ℚ)) (last out : Out O ℚ) :
    Prop where
  core : Core c s0 st'
  log : st'.log = st.log ++ recs
  life : st'.life = st.life
  frames : st'.frames = st.frames
  skipped : Spec.Skipped c.limit st.log a recs
  lastOut : recs.getLast?.bind Spec.out? = some last
  reward : out.reward = Spec.total recs
  done : out.done = last.done
  needs : out.needsReset = true ↔ last.needsReset = true ∨ ∃ n, Spec.since st'.log = some n ∧ c.limit ≤ n
  ended : out.ended = true ↔ Spec.Over c.limit st'.log
  obs : ∀ r o r' o', recs[2]? = some r → Spec.out? r = some o → recs[3]? = some r' → Spec.out? r' = some o' → out.obs = max o.obs o'.obs
  elapsed : ∀ e, st.elapsed = some e → st'.elapsed = some (e + recs.length)

theorem skipStep_ok [Max O] {c : Cfg S A O W} {s0 : S} {st : St S A O W} (h : Core c s0 st) {e : ℕ} (he : st.elapsed = some e) (a : A) :
    ∃ st' out recs last, skipStep c st a = .ok (st', out) ∧ Skips c s0 st st' a recs last out := by
  obtain ⟨st', out, recs, last, i1, i2, i3, i4, i5, i6, i7, i8, i9, i10, i11, i12, i13, i14, i15, i16, i17⟩ :=
    skipLoop_ok (c := c) (s0 := s0) a 3 0 st 0 e (by omega) h he
  refine ⟨st', ⟨max st'.buf.1 st'.buf.2, 0 + Spec.total recs, out.done, out.needsReset⟩, recs, last, by simp only [skipStep]; rw [i1],
    ⟨i2, i3, i6, i7, ⟨i8, i9, i10, i11, i12⟩, i13, by simp, i14, ?_, i16, ?_, ?_⟩⟩
  · rw [← i2.elapsed, i4]
    simp [i15]
  · intro r o r' o' h1 h2 h3 h4
    have hlen : recs.length = 3 + 1 := by
      have := (List.getElem?_eq_some_iff.1 h3).1
      omega
    obtain ⟨j1, -, j3⟩ := i17 hlen
    show max st'.buf.1 st'.buf.2 = _
    rw [j1 r' o' h3 h4, j3 2 rfl r o h1 h2]
  · intro e' he'
    rw [he] at he'
    cases he'
    exact i4

/-- The environment has been reset, and the lives are known. -/
structure Live (c : Cfg S A O W) (s0 : S) (st : St S A O W) : Prop where
  core : Core c s0 st
  started : ∃ e, st.elapsed = some e
  lives : c.episodeLife = true → st.life.lives = c.lives st.s

theorem lifeStep_ok [Max O] {c : Cfg S A O W} {s0 : S} {st : St S A O W} (h : Live c s0 st) (a : A) :
    ∃ st' st1 out out1 recs last, lifeStep c st a = .ok (st', out) ∧ Skips c s0 st st1 a recs last out1 ∧ Live c s0 st' ∧
      st'.s = st1.s ∧ st'.log = st1.log ∧ st'.elapsed = st1.elapsed ∧ st'.frames = st1.frames ∧
      out = { out1 with done := out1.done || (c.episodeLife && decide (0 < c.lives st'.s ∧ c.lives st'.s < c.lives st.s)) } ∧
      (c.episodeLife = true → (st'.life.needsRealReset = true ↔ Spec.Over c.limit st'.log)) := by
  obtain ⟨e, he⟩ := h.started
  obtain ⟨st1, out1, recs, last, k1, k2⟩ := skipStep_ok h.core he a
  unfold lifeStep
  by_cases hl : c.episodeLife = true
  · rw [if_pos hl, k1]
    refine ⟨{ st1 with life := ⟨c.lives st1.s, out1.done || out1.needsReset⟩ }, st1, _, out1, recs, last, rfl, k2,
      ⟨core_congr k2.core rfl rfl rfl, ⟨_, k2.elapsed e he⟩, fun _ => rfl⟩, rfl, rfl, rfl, rfl, ?_, fun _ => k2.ended⟩
    rw [hl, h.lives hl]
    by_cases hn : c.lives st1.s < c.lives st.s ∧ c.lives st1.s > 0
    · simp [hn]
    · have : ¬ (0 < c.lives st1.s ∧ c.lives st1.s < c.lives st.s) := fun h => hn ⟨h.2, h.1⟩
      simp [hn, this]
  · rw [if_neg hl, k1]
    refine ⟨st1, st1, out1, out1, recs, last, rfl, k2, ⟨k2.core, ⟨_, k2.elapsed e he⟩, fun h => absurd h hl⟩, rfl, rfl, rfl, rfl, ?_,
      fun h => absurd h hl⟩
    simp [hl]

/-- What the loop of no-ops does after the reset of the game. -/
structure Spec.Noops (limit : ℕ) (noop : A) (n : ℕ) (log recs : List (Rec S A O ℚ)) : Prop where
  calls : ∀ r ∈ recs, r.call = .step noop ∨ r.call = .reset
  count : (recs.filter fun r => match r.call with
    | .step _ => true
    | .reset => false).length = n
  resets : ∀ (j : ℕ) (r : Rec S A O ℚ), recs[j]? = some r →
    (Spec.Over limit (log ++ recs.take (j + 1)) ↔ ∃ r', recs[j + 1]? = some r' ∧ r'.call = .reset)
  first : ∀ r, recs[0]? = some r → r.call = .step noop

theorem over_reset {limit : ℕ} (hl : 0 < limit) (log : List (Rec S A O ℚ)) (g : Game S A O ℚ) (s : S) :
    ¬ Spec.Over limit (log ++ [g.call s .reset]) := by
  rintro ⟨r, h1, h2⟩
  simp at h1
  subst h1
  rcases h2 with ⟨o, ho, -⟩ | ⟨n, hn, hle⟩
  · cases ho
  · rw [since_reset _ _ rfl] at hn
    cases hn
    omega

/-- All initial parts of the calls have at most one frame above the limit since the last reset. -/
def Peak (limit : ℕ) (log : List (Rec S A O ℚ)) : Prop := ∀ l, l <+: log → ∀ n, Spec.since l = some n → n ≤ limit + 1

theorem peak_snoc {limit : ℕ} {log : List (Rec S A O ℚ)} (h : Peak limit log) (r : Rec S A O ℚ)
    (hr : ∀ n, Spec.since (log ++ [r]) = some n → n ≤ limit + 1) : Peak limit (log ++ [r]) := by
  intro l hl n hn
  rcases List.prefix_concat_iff.1 hl with rfl | hl
  · exact hr n hn
  · exact h l hl n hn

theorem noopLoop_ok {c : Cfg S A O W} (hlim : 0 < c.limit) {s0 : S} : ∀ (n : ℕ) (st : St S A O W) (o : O) (e : ℕ), Core c s0 st →
    st.elapsed = some e → ∃ st' o' recs, noopLoop c n st o = .ok (st', o') ∧ Core c s0 st' ∧ st'.log = st.log ++ recs ∧
      st'.life = st.life ∧ st'.frames = st.frames ∧ Spec.Noops c.limit c.noop n st.log recs ∧
      (0 < n → recs.getLast?.bind (fun r => r.ret.obs?) = some o') ∧ (n = 0 → o' = o ∧ recs = []) ∧
      (∃ e', st'.elapsed = some e' ∧ (e < c.limit → e' < c.limit)) ∧ (e < c.limit → Peak c.limit st.log → Peak c.limit st'.log)
  | 0, st, o, e, h, he => by
    refine ⟨st, o, [], rfl, h, by simp, rfl, rfl, ⟨by simp, rfl, by simp, by simp⟩, by simp, fun _ => ⟨rfl, rfl⟩, ⟨e, he, id⟩, fun _ => id⟩
  | n + 1, st, o, e, h, he => by
    obtain ⟨st1, out, k1, k2, k3, k4, k5, k6, k7, k8, k9, k10⟩ := tlStep_ok h he c.noop
    have hpk : e < c.limit → Peak c.limit st.log → Peak c.limit st1.log := by
      intro h1 h2
      rw [k3]
      refine peak_snoc h2 _ fun m hm => ?_
      rw [← k3, ← k2.elapsed, k4] at hm
      cases hm
      omega
    unfold noopLoop
    rw [k1]
    simp only
    by_cases hend : out.ended = true
    · rw [if_pos hend]
      obtain ⟨r1, r2, r3⟩ := tlReset_ok k2
      obtain ⟨st', o', recs, i1, i2, i3, i4, i5, i6, i7, i8, ⟨e', i9, i9'⟩, i10⟩ := noopLoop_ok hlim n _ (tlReset c st1).2 0 r1 r3
      have happ : ∀ l, (tlReset c st1).1.log ++ l = st.log ++ (c.g.call st.s (.step c.noop) :: c.g.call st1.s .reset :: l) := by
        intro l; rw [r2, k3]; simp
      refine ⟨st', o', _ :: _ :: recs, i1, i2, by rw [i3, happ], i4.trans k7, i5.trans k8, ⟨?_, ?_, ?_, ?_⟩, ?_, by simp, ⟨e', i9, fun _ => i9' hlim⟩, ?_⟩
      · intro r hr
        rcases List.mem_cons.1 hr with rfl | hr
        · left; rfl
        · rcases List.mem_cons.1 hr with rfl | hr
          · right; rfl
          · exact i6.calls r hr
      · simpa [Game.call] using i6.count
      · intro j r hr
        match j with
        | 0 =>
          simp only [List.take_succ_cons, List.take_zero]
          rw [← k3]
          exact ⟨fun _ => ⟨_, rfl, rfl⟩, fun _ => k10.1 hend⟩
        | 1 =>
          simp only [List.take_succ_cons, List.take_zero]
          rw [show st.log ++ [c.g.call st.s (.step c.noop), c.g.call st1.s .reset] = st1.log ++ [c.g.call st1.s .reset] by rw [k3]; simp]
          refine ⟨fun h => absurd h (over_reset hlim _ _ _), ?_⟩
          rintro ⟨r', hr', hc⟩
          have := i6.first r' (by simpa using hr')
          rw [hc] at this
          cases this
        | j + 2 =>
          simp only [List.take_succ_cons, List.getElem?_cons_succ] at hr ⊢
          rw [← happ]
          exact i6.resets j r hr
      · intro r hr
        simp at hr
        subst hr
        rfl
      · intro _
        cases n with
        | zero =>
          obtain ⟨rfl, rfl⟩ := i8 rfl
          rfl
        | succ n =>
          have := i7 (by omega)
          cases recs with
          | nil => simp at this
          | cons r recs => simpa [List.getLast?_cons_cons] using this
      · intro h1 h2
        refine i10 hlim ?_
        rw [r2]
        refine peak_snoc (hpk h1 h2) _ fun m hm => ?_
        rw [since_reset _ _ rfl] at hm
        cases hm
        omega
    · rw [if_neg hend]
      have hover : ¬ Spec.Over c.limit st1.log := fun hh => hend (k10.2 hh)
      obtain ⟨st', o', recs, i1, i2, i3, i4, i5, i6, i7, i8, ⟨e', i9, i9'⟩, i10⟩ := noopLoop_ok hlim n st1 out.obs (e + 1) k2 k4
      have happ : ∀ l, st1.log ++ l = st.log ++ (c.g.call st.s (.step c.noop) :: l) := by intro l; rw [k3]; simp
      have hlt : e + 1 < c.limit := by
        by_contra hge
        refine hover ⟨c.g.call st.s (.step c.noop), by rw [k3]; simp, .inr ⟨e + 1, ?_, by omega⟩⟩
        rw [← k2.elapsed, k4]
      refine ⟨st', o', _ :: recs, i1, i2, by rw [i3, happ], i4.trans k7, i5.trans k8, ⟨?_, ?_, ?_, ?_⟩, ?_, by simp, ⟨e', i9, fun _ => i9' hlt⟩,
        fun h1 h2 => i10 hlt (hpk h1 h2)⟩
      · intro r hr
        rcases List.mem_cons.1 hr with rfl | hr
        · left; rfl
        · exact i6.calls r hr
      · simpa [Game.call] using i6.count
      · intro j r hr
        match j with
        | 0 =>
          simp only [List.take_succ_cons, List.take_zero]
          rw [← k3]
          refine ⟨fun h => absurd h hover, ?_⟩
          rintro ⟨r', hr', hc⟩
          have := i6.first r' (by simpa using hr')
          rw [hc] at this
          cases this
        | j + 1 =>
          simp only [List.take_succ_cons, List.getElem?_cons_succ] at hr ⊢
          rw [← happ]
          exact i6.resets j r hr
      · intro r hr
        simp at hr
        subst hr
        rfl
      · intro _
        cases n with
        | zero =>
          obtain ⟨rfl, rfl⟩ := i8 rfl
          simp [Game.call, Ret.obs?, k9]
        | succ n =>
          have := i7 (by omega)
          cases recs with
          | nil => simp at this
          | cons r recs => simpa [List.getLast?_cons_cons] using this

theorem noopReset_ok {c : Cfg S A O W} (hlim : 0 < c.limit) (hd : ∀ i, 0 < c.draws i) {s0 : S} {st : St S A O W} (h : Core c s0 st) :
    ∃ st' o recs, noopReset c st = .ok (st', o) ∧ Core c s0 st' ∧ st'.log = st.log ++ (c.g.call st.s .reset :: recs) ∧
      st'.life = st.life ∧ st'.frames = st.frames ∧ Spec.Noops c.limit c.noop (c.draws st.nDraws) (st.log ++ [c.g.call st.s .reset]) recs ∧
      recs.getLast?.bind (fun r => r.ret.obs?) = some o ∧ (∃ e, st'.elapsed = some e ∧ e < c.limit) ∧
      (Peak c.limit st.log → Peak c.limit st'.log) := by
  obtain ⟨r1, r2, r3⟩ := tlReset_ok h
  obtain ⟨st', o', recs, i1, i2, i3, i4, i5, i6, i7, -, ⟨e', i9, i9'⟩, i10⟩ :=
    noopLoop_ok hlim (c.draws st.nDraws) { (tlReset c st).1 with nDraws := st.nDraws + 1 } (tlReset c st).2 0
      (core_congr r1 rfl rfl rfl) r3
  refine ⟨st', o', recs, ?_, i2, ?_, i4, i5, ?_, i7 (hd _), ⟨e', i9, i9' hlim⟩, ?_⟩
  · simp only [noopReset, if_neg (hd st.nDraws).ne', i1]
  · rw [i3]
    show (tlReset c st).1.log ++ recs = _
    rw [r2]
    simp
  · rw [← r2]
    exact i6
  · intro hp
    refine i10 hlim ?_
    show Peak c.limit (tlReset c st).1.log
    rw [r2]
    refine peak_snoc hp _ fun m hm => ?_
    rw [since_reset _ _ rfl] at hm
    cases hm
    omega

theorem since_steps {a : A} : ∀ (recs log : List (Rec S A O ℚ)), (∀ r ∈ recs, r.call = .step a) →
    Spec.since (log ++ recs) = (Spec.since log).map (· + recs.length)
  | [], log, _ => by cases h : Spec.since log <;> simp [h]
  | r :: recs, log, h => by
    have := since_steps recs (log ++ [r]) (fun r hr => h r (by simp [hr]))
    rw [List.append_assoc, List.singleton_append, since_step _ _ (h r (by simp))] at this
    rw [this]
    cases Spec.since log
    · rfl
    · simp; omega

theorem peak_steps {limit : ℕ} {a : A} : ∀ (recs log : List (Rec S A O ℚ)) (e : ℕ), (∀ r ∈ recs, r.call = .step a) → Peak limit log →
    Spec.since log = some e → e + recs.length ≤ limit + 1 → Peak limit (log ++ recs)
  | [], log, e, _, h, _, _ => by simpa using h
  | r :: recs, log, e, hr, h, he, hle => by
    have e1 : Spec.since (log ++ [r]) = some (e + 1) := by rw [since_step _ _ (hr r (by simp)), he]; rfl
    simp only [List.length_cons] at hle
    have := peak_steps recs (log ++ [r]) (e + 1) (fun r hr' => hr r (by simp [hr'])) (peak_snoc h r fun n hn => by
      rw [e1] at hn; cases hn; omega) e1 (by omega)
    simpa using this

/-- How many frames a skipping step can add. -/
theorem skips_elapsed [Max O] {c : Cfg S A O W} {s0 : S} {st st' : St S A O W} {a : A} {recs : List (Rec S A O ℚ)} {last out : Out O ℚ}
    (h0 : Core c s0 st) (h : Skips c s0 st st' a recs last out) {e : ℕ} (he : st.elapsed = some e) (hle : e ≤ c.limit) :
    e + recs.length ≤ c.limit + 1 ∧ (e < c.limit → e + recs.length ≤ c.limit) ∧
    (¬ Spec.Over c.limit st'.log → e + recs.length < c.limit) ∧ (Peak c.limit st.log → Peak c.limit st'.log) := by
  obtain ⟨h1, h2, h3, h4, h5⟩ := h.skipped
  have hsin : ∀ j, Spec.since (st.log ++ recs.take j) = some (e + (recs.take j).length) := by
    intro j
    rw [since_steps _ _ (fun r hr => h3 r (List.mem_of_mem_take hr)), ← h0.elapsed, he]
    rfl
  have hlt : ∀ j, 0 < j → j < recs.length → e + j < c.limit := by
    intro j hj hj2
    by_contra hge
    refine h4 j hj hj2 ?_
    obtain ⟨r, hr⟩ : ∃ r, (st.log ++ recs.take j).getLast? = some r := by
      cases hh : (st.log ++ recs.take j).getLast? with
      | none =>
        rw [List.getLast?_eq_none_iff] at hh
        have := congrArg List.length hh
        simp only [List.length_append, List.length_take, List.length_nil] at this
        omega
      | some r => exact ⟨r, rfl⟩
    refine ⟨r, hr, .inr ⟨_, hsin j, ?_⟩⟩
    rw [List.length_take]
    omega
  have hlen : e + recs.length ≤ c.limit + 1 := by
    rcases Nat.lt_or_ge 1 recs.length with hh | hh
    · have := hlt (recs.length - 1) (by omega) (by omega)
      omega
    · omega
  refine ⟨hlen, ?_, ?_, fun hp => ?_⟩
  · intro hlt'
    rcases Nat.lt_or_ge 1 recs.length with hh | hh
    · have := hlt (recs.length - 1) (by omega) (by omega)
      omega
    · omega
  · intro hno
    by_contra hge
    apply hno
    obtain ⟨r, hr⟩ : ∃ r, st'.log.getLast? = some r := by
      rw [h.log]
      cases hh : (st.log ++ recs).getLast? with
      | none =>
        rw [List.getLast?_eq_none_iff] at hh
        have := congrArg List.length hh
        simp only [List.length_append, List.length_nil] at this
        omega
      | some r => exact ⟨r, rfl⟩
    refine ⟨r, hr, .inr ⟨e + recs.length, ?_, by omega⟩⟩
    rw [h.log]
    have := hsin recs.length
    rwa [List.take_length] at this
  · rw [h.log]
    exact peak_steps recs st.log e h3 hp (by rw [← h0.elapsed, he]) hlen

theorem lifeReset_ok [Max O] {c : Cfg S A O W} (hlim : 0 < c.limit) (hd : ∀ i, 0 < c.draws i) {s0 : S} {st : St S A O W} (h : Core c s0 st)
    (h0 : c.episodeLife = true → st.life.needsRealReset = false → ∃ e, st.elapsed = some e) :
    ∃ st' o, lifeReset c st = .ok (st', o) ∧ Live c s0 st' ∧ st'.frames = st.frames ∧
      (c.episodeLife = true → st'.life.needsRealReset = st.life.needsRealReset) ∧
      (c.episodeLife = false ∨ st.life.needsRealReset = true → ∃ recs, st'.log = st.log ++ (c.g.call st.s .reset :: recs) ∧
        Spec.Noops c.limit c.noop (c.draws st.nDraws) (st.log ++ [c.g.call st.s .reset]) recs ∧
        recs.getLast?.bind (fun r => r.ret.obs?) = some o ∧ (∃ e, st'.elapsed = some e ∧ e < c.limit) ∧
        (Peak c.limit st.log → Peak c.limit st'.log)) ∧
      (c.episodeLife = true → st.life.needsRealReset = false → ∃ st1 recs last out, Skips c s0 st st1 c.noop recs last out ∧
        st'.log = st1.log ∧ st'.elapsed = st1.elapsed ∧ o = out.obs) := by
  by_cases hl : c.episodeLife = true
  · by_cases hr : st.life.needsRealReset = true
    · obtain ⟨st', o, recs, k1, k2, k3, k4, k5, k6, k7, ⟨e, k8, k8'⟩, k9⟩ := noopReset_ok hlim hd h
      refine ⟨{ st' with life := ⟨c.lives st'.s, st'.life.needsRealReset⟩ }, o, by simp only [lifeReset, hl, hr, if_true]; rw [k1],
        ⟨core_congr k2 rfl rfl rfl, ⟨e, k8⟩, fun _ => rfl⟩, k5, fun _ => by rw [← k4], fun _ => ⟨recs, k3, k6, k7, ⟨e, k8, k8'⟩, k9⟩,
        fun _ hh => by rw [hr] at hh; cases hh⟩
    · have hr' : st.life.needsRealReset = false := by simpa using hr
      obtain ⟨e, he⟩ := h0 hl hr'
      obtain ⟨st1, out, recs, last, k1, k2⟩ := skipStep_ok h he c.noop
      refine ⟨{ st1 with life := ⟨c.lives st1.s, st1.life.needsRealReset⟩ }, out.obs, by simp only [lifeReset, hl, hr', if_true]; simp [k1],
        ⟨core_congr k2.core rfl rfl rfl, ⟨_, k2.elapsed e he⟩, fun _ => rfl⟩, k2.frames, fun _ => by rw [← k2.life], ?_,
        fun _ _ => ⟨st1, recs, last, out, k2, rfl, rfl, rfl⟩⟩
      rintro (hh | hh)
      · rw [hl] at hh; cases hh
      · exact absurd hh hr
  · obtain ⟨st', o, recs, k1, k2, k3, k4, k5, k6, k7, ⟨e, k8, k8'⟩, k9⟩ := noopReset_ok hlim hd h
    exact ⟨st', o, by simp only [lifeReset, hl]; exact k1, ⟨k2, ⟨e, k8⟩, fun hh => absurd hh hl⟩, k5, fun hh => absurd hh hl,
      fun _ => ⟨recs, k3, k6, k7, ⟨e, k8, k8'⟩, k9⟩, fun hh => absurd hh hl⟩

/-- Within the limit: the next frame may be played. -/
def Within (c : Cfg S A O W) (st : St S A O W) : Prop := Peak c.limit st.log ∧ ∀ e, st.elapsed = some e → e ≤ c.limit

/-- Within the limit if the next call is a reset. -/
def Resettable (c : Cfg S A O W) (st : St S A O W) : Prop :=
  Peak c.limit st.log ∧ (c.episodeLife = true → st.life.needsRealReset = false → ∀ e, st.elapsed = some e → e < c.limit)

theorem lifeReset_within [Max O] {c : Cfg S A O W} (hlim : 0 < c.limit) (hd : ∀ i, 0 < c.draws i) {s0 : S} {st st' : St S A O W} {o : O}
    (h : Core c s0 st) (h0 : c.episodeLife = true → st.life.needsRealReset = false → ∃ e, st.elapsed = some e)
    (hr : Resettable c st) (hres : lifeReset c st = .ok (st', o)) : Within c st' := by
  obtain ⟨st1, o1, k1, -, -, -, k5, k6⟩ := lifeReset_ok hlim hd h h0
  rw [hres] at k1
  cases k1
  by_cases hc : c.episodeLife = false ∨ st.life.needsRealReset = true
  · obtain ⟨recs, -, -, -, ⟨e, he, hlt⟩, hp⟩ := k5 hc
    refine ⟨hp hr.1, fun e' he' => ?_⟩
    rw [he] at he'
    cases he'
    omega
  · simp only [not_or, Bool.not_eq_false, Bool.not_eq_true] at hc
    obtain ⟨st1, recs, last, out, h1, h2, h3, -⟩ := k6 hc.1 hc.2
    obtain ⟨e, he⟩ := h0 hc.1 hc.2
    obtain ⟨-, j2, -, j4⟩ := skips_elapsed h h1 he (hr.2 hc.1 hc.2 e he).le
    refine ⟨h2 ▸ j4 hr.1, fun e' he' => ?_⟩
    rw [h3, h1.elapsed e he] at he'
    cases he'
    exact j2 (hr.2 hc.1 hc.2 e he)

theorem lifeStep_within [Max O] {c : Cfg S A O W} {s0 : S} {st st' : St S A O W} {a : A} {out : Out O ℚ} (h : Live c s0 st)
    (hw : Within c st) (hres : lifeStep c st a = .ok (st', out)) : Resettable c st' ∧ (out.ended = false → Within c st') := by
  obtain ⟨st2, st1, out', out1, recs, last, k1, k2, k3, k4, k5, k6, k7, k8, k9⟩ := lifeStep_ok h a
  rw [hres] at k1
  cases k1
  obtain ⟨e, he⟩ := h.started
  obtain ⟨j1, j2, j3, j4⟩ := skips_elapsed h.core k2 he (hw.2 e he)
  refine ⟨⟨k5 ▸ j4 hw.1, fun hl hr e' he' => ?_⟩, fun hend => ⟨k5 ▸ j4 hw.1, fun e' he' => ?_⟩⟩
  · rw [k6, k2.elapsed e he] at he'
    cases he'
    refine j3 fun ho => ?_
    rw [← k5, ← k9 hl, hr] at ho
    cases ho
  · rw [k6, k2.elapsed e he] at he'
    cases he'
    refine (j3 fun ho => ?_).le
    rw [← k2.ended] at ho
    rw [k8] at hend
    simp only [Out.ended, Bool.or_eq_false_iff, Bool.or_eq_true] at hend ho
    rcases ho with ho | ho
    · rw [ho] at hend; simp at hend
    · rw [ho] at hend; simp at hend

theorem fireOne_ok [Max O] {c : Cfg S A O W} (hlim : 0 < c.limit) (hd : ∀ i, 0 < c.draws i) {s0 : S} {st : St S A O W} (h : Live c s0 st) (a : A) :
    ∃ st' o, fireOne c st a = .ok (st', o) ∧ Live c s0 st' ∧ st'.frames = st.frames ∧ (Within c st → Within c st') := by
  obtain ⟨st2, st1, out, out1, recs, last, k1, k2, k3, k4, k5, k6, k7, k8, k9⟩ := lifeStep_ok h a
  unfold fireOne
  rw [k1]
  simp only
  by_cases hend : out.ended = true
  · rw [if_pos hend]
    obtain ⟨st', o, r1, r2, r3, -⟩ := lifeReset_ok hlim hd k3.core (fun _ _ => k3.started)
    rw [r1]
    exact ⟨st', _, rfl, r2, by rw [r3, k7, k2.frames], fun hw => lifeReset_within hlim hd k3.core (fun _ _ => k3.started)
      (lifeStep_within h hw k1).1 r1⟩
  · rw [if_neg hend]
    exact ⟨st2, _, rfl, k3, by rw [k7, k2.frames], fun hw => (lifeStep_within h hw k1).2 (by simpa using hend)⟩

theorem fireReset_ok [Max O] {c : Cfg S A O W} (hlim : 0 < c.limit) (hd : ∀ i, 0 < c.draws i) {s0 : S} {st : St S A O W} (h : Core c s0 st)
    (h0 : c.episodeLife = true → st.life.needsRealReset = false → ∃ e, st.elapsed = some e) :
    ∃ st' o, fireReset c st = .ok (st', o) ∧ Live c s0 st' ∧ st'.frames = st.frames ∧ (Resettable c st → Within c st') ∧
      (c.fire = none → lifeReset c st = .ok (st', o)) := by
  obtain ⟨st1, o1, r1, r2, r3, -⟩ := lifeReset_ok hlim hd h h0
  unfold fireReset
  rw [r1]
  simp only
  cases hf : c.fire with
  | none => exact ⟨st1, o1, rfl, r2, r3, fun hr => lifeReset_within hlim hd h h0 hr r1, fun _ => rfl⟩
  | some p =>
    obtain ⟨st2, o2, f1, f2, f3, f4⟩ := fireOne_ok hlim hd r2 p.1
    obtain ⟨st3, o3, g1, g2, g3, g4⟩ := fireOne_ok hlim hd f2 p.2
    simp only [f1]
    exact ⟨st3, o3, g1, g2, by rw [g3, f3, r3], fun hr => g4 (f4 (lifeReset_within hlim hd h h0 hr r1)), by simp⟩

/-- The state between calls of the agent. -/
structure Inv (c : Cfg S A O W) (s0 : S) (st : St S A O W) : Prop where
  core : Core c s0 st
  fresh : st.elapsed = none → st.life.needsRealReset = true ∧ st.frames.length ≤ 4
  live : st.elapsed ≠ none → Live c s0 st ∧ st.frames.length = 4

theorem Inv.h0 {c : Cfg S A O W} {s0 : S} {st : St S A O W} (h : Inv c s0 st) :
    c.episodeLife = true → st.life.needsRealReset = false → ∃ e, st.elapsed = some e := by
  intro _ hr
  cases he : st.elapsed with
  | none =>
    have := (h.fresh he).1
    rw [hr] at this
    cases this
  | some e => exact ⟨e, rfl⟩

theorem live_congr {c : Cfg S A O W} {s0 : S} {st st' : St S A O W} (h : Live c s0 st) (h1 : st'.s = st.s) (h2 : st'.log = st.log)
    (h3 : st'.elapsed = st.elapsed) (h4 : st'.life = st.life) : Live c s0 st' :=
  ⟨core_congr h.core h1 h2 h3, by rw [h3]; exact h.started, by rw [h4, h1]; exact h.lives⟩

theorem reset_ok [Max O] {c : Cfg S A O W} (hlim : 0 < c.limit) (hd : ∀ i, 0 < c.draws i) {s0 : S} {st : St S A O W} (h : Inv c s0 st) :
    ∃ st1 st' o, fireReset c st = .ok (st1, o) ∧ reset c st = .ok (st', List.replicate 4 (c.warp o)) ∧ Inv c s0 st' ∧
      st'.log = st1.log ∧ st'.frames = List.replicate 4 (c.warp o) ∧ st'.elapsed ≠ none ∧ st'.life = st1.life ∧ (Resettable c st → Within c st') := by
  obtain ⟨st1, o, r1, r2, r3, r4, -⟩ := fireReset_ok hlim hd h.core h.h0
  have hlen : st1.frames.length ≤ 4 := by
    rw [r3]
    cases he : st.elapsed with
    | none => exact (h.fresh he).2
    | some e => exact (h.live (by simp [he])).2.le
  obtain ⟨e, he⟩ := r2.started
  refine ⟨st1, { st1 with frames := List.replicate 4 (c.warp o) }, o, r1, ?_, ⟨core_congr r2.core rfl rfl rfl, ?_, ?_⟩, rfl, rfl, ?_, rfl, ?_⟩
  · simp only [reset, r1, Frames.fill_full 4 hlen]
    simp
  · intro hn
    simp [he] at hn
  · exact fun _ => ⟨live_congr r2 rfl rfl rfl rfl, by simp⟩
  · simp [he]
  · exact r4

theorem step_ok [Max O] {c : Cfg S A O W} {s0 : S} {st : St S A O W} (h : Inv c s0 st) (hs : st.elapsed ≠ none) (a : A) :
    ∃ st1 st' out1 out, lifeStep c st a = .ok (st1, out1) ∧ step c st a = .ok (st', out) ∧ Inv c s0 st' ∧ st'.log = st1.log ∧
      st'.s = st1.s ∧ st'.elapsed = st1.elapsed ∧ st'.life = st1.life ∧ st'.frames = st.frames.drop 1 ++ [c.warp out1.obs] ∧
      out = ⟨st.frames.drop 1 ++ [c.warp out1.obs], clipReward c.clip out1.reward, out1.done, out1.needsReset⟩ ∧ st'.elapsed ≠ none := by
  obtain ⟨hl, hf⟩ := h.live hs
  obtain ⟨st2, st1, out, out1, recs, last, k1, k2, k3, k4, k5, k6, k7, k8, k9⟩ := lifeStep_ok hl a
  have hfr : st2.frames = st.frames := by rw [k7, k2.frames]
  have hpush : Frames.push 4 st2.frames (c.warp out.obs) = st.frames.drop 1 ++ [c.warp out.obs] := by
    rw [hfr, Frames.push, hf, List.drop_append_of_le_length (by omega)]
  have hlen : (st.frames.drop 1 ++ [c.warp out.obs]).length = 4 := by simp [hf]
  obtain ⟨e, he⟩ := k3.started
  refine ⟨st2, { st2 with frames := st.frames.drop 1 ++ [c.warp out.obs] }, out, _, k1, ?_, ⟨core_congr k3.core rfl rfl rfl, ?_, ?_⟩, rfl, rfl, rfl, rfl, rfl,
    rfl, by simp [he]⟩
  · simp only [step, k1, hpush, if_pos hlen]
  · intro hn
    simp [he] at hn
  · exact fun _ => ⟨live_congr k3 rfl rfl rfl rfl, hlen⟩

theorem step_refused [Max O] {c : Cfg S A O W} {st : St S A O W} (hs : st.elapsed = none) (a : A) : call c st (.step a) = (st, .refused) := by
  have h1 : skipLoop c a 4 0 st 0 = .error .assertionError := by simp [skipLoop, tlStep, hs]
  have h2 : skipStep c st a = .error .assertionError := by simp only [skipStep, h1]
  have h3 : lifeStep c st a = .error .assertionError := by
    simp only [lifeStep, h2]
    split <;> rfl
  simp only [call, step, h3]

/-- The state after these calls of the agent. -/
def after [Max O] (c : Cfg S A O W) (st : St S A O W) (ops : List (Op A)) : St S A O W := ops.foldl (fun st op => (call c st op).1) st

theorem call_inv [Max O] {c : Cfg S A O W} (hlim : 0 < c.limit) (hd : ∀ i, 0 < c.draws i) {s0 : S} {st : St S A O W} (h : Inv c s0 st) (op : Op A) :
    Inv c s0 (call c st op).1 ∧ (st.elapsed ≠ none → (call c st op).1.elapsed ≠ none) ∧ (op = .reset → (call c st op).1.elapsed ≠ none) ∧
    (st.elapsed = none → op ≠ .reset → (call c st op).1 = st) := by
  cases op with
  | step a =>
    by_cases hs : st.elapsed = none
    · rw [step_refused hs]
      exact ⟨h, fun hh => absurd hs hh, by simp, fun _ _ => rfl⟩
    · obtain ⟨st1, st', out1, out, k1, k2, k3, -, -, -, -, -, -, k10⟩ := step_ok h hs a
      simp only [call, k2]
      exact ⟨k3, fun _ => k10, fun _ => k10, fun hh => absurd hh hs⟩
  | reset =>
    obtain ⟨st1, st', o, k1, k2, k3, -, -, k6, -, -⟩ := reset_ok hlim hd h
    simp only [call, k2]
    exact ⟨k3, fun _ => k6, fun _ => k6, by simp⟩

theorem after_inv [Max O] {c : Cfg S A O W} (hlim : 0 < c.limit) (hd : ∀ i, 0 < c.draws i) {s0 : S} : ∀ (ops : List (Op A)) (st : St S A O W),
    Inv c s0 st → Inv c s0 (after c st ops) ∧ (st.elapsed ≠ none ∨ Op.reset ∈ ops → (after c st ops).elapsed ≠ none) ∧
      (st.elapsed = none → Op.reset ∉ ops → after c st ops = st)
  | [], st, h => ⟨h, by simp [after], fun _ _ => rfl⟩
  | op :: ops, st, h => by
    obtain ⟨h1, h2, h3, h4⟩ := call_inv hlim hd h op
    obtain ⟨i1, i2, i3⟩ := after_inv hlim hd ops _ h1
    refine ⟨i1, ?_, ?_⟩
    · rintro (hh | hh)
      · exact i2 (.inl (h2 hh))
      · rcases List.mem_cons.1 hh with rfl | hh
        · exact i2 (.inl (h3 rfl))
        · exact i2 (.inr hh)
    · intro hn hno
      simp only [List.mem_cons, not_or] at hno
      have e := h4 hn (fun hh => hno.1 hh.symm)
      have := i3 (by rw [e]; exact hn) hno.2
      simp only [after, List.foldl_cons] at this ⊢
      rw [this, e]

theorem init_inv (c : Cfg S A O W) (s : S) (zero : O) : Inv c s (St.init s zero) :=
  ⟨⟨trivial, rfl, rfl⟩, fun _ => ⟨rfl, by simp [St.init]⟩, fun h => absurd rfl h⟩

/-! ## C111 -/

/-- **C111 (calls on the game).** After any calls of the agent, the calls recorded are calls on the game one after the other, and the
game is in the state they lead to. -/
theorem atari_calls [Max O] (c : Cfg S A O W) (hlim : 0 < c.limit) (hd : ∀ i, 0 < c.draws i) (s : S) (zero : O) (ops : List (Op A)) :
    Wrap.Spec.Chain c.g s (after c (St.init s zero) ops).log ∧ finalState s (after c (St.init s zero) ops).log = (after c (St.init s zero) ops).s :=
  ⟨(after_inv hlim hd ops _ (init_inv c s zero)).1.core.chain, (after_inv hlim hd ops _ (init_inv c s zero)).1.core.final⟩

/-- **C111 (before the first reset).** A step before the first reset is refused, and the game is not called. -/
theorem atari_not_started [Max O] (c : Cfg S A O W) (hlim : 0 < c.limit) (hd : ∀ i, 0 < c.draws i) (s : S) (zero : O) (ops : List (Op A))
    (hops : Op.reset ∉ ops) (a : A) : call c (after c (St.init s zero) ops) (.step a) = (St.init s zero, .refused) := by
  rw [(after_inv hlim hd ops _ (init_inv c s zero)).2.2 rfl hops]
  exact step_refused rfl a

/-- **C111 (steps).** After any calls of the agent with a reset among them, a step plays one to four frames with the agent's action,
stopping early exactly if the game is over or the limit of frames since the reset of the game is reached.  The reward is the sum of
their rewards, or its sign with `clip_rewards`.  `done` is that of the last frame, or, with `episode_life`, true if a life was lost
in this step and others are left; `needs_reset` says that the last frame asked for a reset or reached the limit.  The observation is
the previous one without its oldest frame, and a new frame; if four frames were played, that is the warped maximum of the last two. -/
theorem atari_step [Max O] (c : Cfg S A O W) (hlim : 0 < c.limit) (hd : ∀ i, 0 < c.draws i) (s : S) (zero : O) (ops : List (Op A))
    (hops : Op.reset ∈ ops) (a : A) (st : St S A O W) (hst : st = after c (St.init s zero) ops) :
    ∃ st' out recs last f, call c st (.step a) = (st', .stepped out) ∧ st'.log = st.log ++ recs ∧ Spec.Skipped c.limit st.log a recs ∧
      recs.getLast?.bind Spec.out? = some last ∧
      out.reward = (if c.clip then (if Spec.total recs < 0 then -1 else if 0 < Spec.total recs then 1 else 0) else Spec.total recs) ∧
      (out.done = true ↔ last.done = true ∨ (c.episodeLife = true ∧ 0 < c.lives st'.s ∧ c.lives st'.s < c.lives st.s)) ∧
      (out.needsReset = true ↔ last.needsReset = true ∨ ∃ n, Spec.since st'.log = some n ∧ c.limit ≤ n) ∧
      out.obs = st.frames.drop 1 ++ [c.warp f] ∧ out.obs.length = 4 ∧ st'.frames = out.obs ∧
      (∀ r o r' o', recs[2]? = some r → Spec.out? r = some o → recs[3]? = some r' → Spec.out? r' = some o' → f = max o.obs o'.obs) := by
  obtain ⟨h1, h2, -⟩ := after_inv hlim hd ops _ (init_inv c s zero)
  rw [← hst] at h1 h2
  have hs := h2 (.inr hops)
  obtain ⟨hl, hf⟩ := h1.live hs
  obtain ⟨st1, st', out1, out, k1, k2, k3, k4, k5, k6, k7, k8, k9, -⟩ := step_ok h1 hs a
  obtain ⟨st2, st3, out', out3, recs, last, l1, l2, l3, l4, l5, l6, l7, l8, l9⟩ := lifeStep_ok hl a
  rw [k1] at l1
  cases l1
  refine ⟨st', out, recs, last, out1.obs, by simp only [call, k2], by rw [k4, l5, l2.log], l2.skipped, l2.lastOut, ?_, ?_, ?_, ?_, ?_, ?_, ?_⟩
  · rw [k9, l8, ← l2.reward]
    rfl
  · rw [k9, l8, k5]
    simp [l2.done]
  · rw [k9, l8, k4, l5]
    exact l2.needs
  · rw [k9]
  · rw [k9]; simp [hf]
  · rw [k8, k9]
  · intro r o r' o' q1 q2 q3 q4
    rw [l8]
    exact l2.obs r o r' o' q1 q2 q3 q4

/-- **C111 (resets, without `fire_reset`).** A reset returns four copies of one frame.  It resets the game if `episode_life` is not used,
if the agent has made no step, or if after its last step, made just before, the game was over or the limit reached: then it plays the
drawn number of no-ops, resetting the game again exactly when it is over, and returns the last frame.  If after that step the game
was not over (a life was lost, or the agent gave up), it does not reset the game, and plays one to four no-ops. -/
theorem atari_reset [Max O] (c : Cfg S A O W) (hlim : 0 < c.limit) (hd : ∀ i, 0 < c.draws i) (hfire : c.fire = none) (s : S) (zero : O)
    (ops : List (Op A)) (st : St S A O W) (hst : st = after c (St.init s zero) ops) :
    ∃ st' o, call c st .reset = (st', .obs (List.replicate 4 (c.warp o))) ∧ st'.frames = List.replicate 4 (c.warp o) ∧
      (c.episodeLife = false ∨ (∀ a, Op.step a ∉ ops) ∨ (∃ ops' a, ops = ops' ++ [Op.step a] ∧ Op.reset ∈ ops' ∧ Spec.Over c.limit st.log) →
        ∃ recs, st'.log = st.log ++ (c.g.call st.s .reset :: recs) ∧
          Spec.Noops c.limit c.noop (c.draws st.nDraws) (st.log ++ [c.g.call st.s .reset]) recs ∧
          recs.getLast?.bind (fun r => r.ret.obs?) = some o) ∧
      (c.episodeLife = true → (∃ ops' a, ops = ops' ++ [Op.step a] ∧ Op.reset ∈ ops') → ¬ Spec.Over c.limit st.log →
        ∃ recs, st'.log = st.log ++ recs ∧ Spec.Skipped c.limit st.log c.noop recs ∧
          (∀ r x r' x', recs[2]? = some r → Spec.out? r = some x → recs[3]? = some r' → Spec.out? r' = some x' → o = max x.obs x'.obs)) := by
  obtain ⟨h1, h2, -⟩ := after_inv hlim hd ops _ (init_inv c s zero)
  rw [← hst] at h1 h2
  obtain ⟨st1, st', o, k1, k2, k3, k4, k5, -⟩ := reset_ok hlim hd h1
  have hlr : lifeReset c st = .ok (st1, o) := by
    obtain ⟨st2, o2, f1, -, -, -, f5⟩ := fireReset_ok hlim hd h1.core h1.h0
    rw [k1] at f1
    cases f1
    exact f5 hfire
  obtain ⟨st2, o2, m1, m2, m3, m4, m5, m6⟩ := lifeReset_ok hlim hd h1.core h1.h0
  rw [hlr] at m1
  cases m1
  have hover : ∀ ops' a, ops = ops' ++ [Op.step a] → Op.reset ∈ ops' → c.episodeLife = true →
      (st.life.needsRealReset = true ↔ Spec.Over c.limit st.log) := by
    intro ops' a he hr hl
    obtain ⟨p1, p2, -⟩ := after_inv hlim hd ops' _ (init_inv c s zero)
    have hs := p2 (.inr hr)
    obtain ⟨q1, q2⟩ := p1.live hs
    obtain ⟨t1, t', out1, out, u1, u2, -, u4, -, -, u7, -⟩ := step_ok p1 hs a
    obtain ⟨v2, v3, out', out3, recs, last, l1, -, -, -, -, -, -, -, l9⟩ := lifeStep_ok q1 a
    rw [u1] at l1
    cases l1
    have est : st = t' := by
      rw [hst, he]
      unfold after
      rw [List.foldl_append]
      show (call c (after c (St.init s zero) ops') (.step a)).1 = t'
      simp only [call, u2]
    rw [est, u7, u4]
    exact l9 hl
  have hnostep : (∀ a, Op.step a ∉ ops) → c.episodeLife = true → st.life.needsRealReset = true := by
    intro hno hl
    have key : ∀ (ops : List (Op A)) (st0 : St S A O W), Inv c s st0 → st0.life.needsRealReset = true → (∀ a, Op.step a ∉ ops) →
        (after c st0 ops).life.needsRealReset = true := by
      intro ops
      induction ops with
      | nil => exact fun _ _ h _ => h
      | cons op ops ih =>
        intro st0 hi h hno
        cases op with
        | step a => exact absurd (by simp) (hno a)
        | reset =>
          obtain ⟨t1, t', o, u1, u2, u3, -, -, -, u7, -⟩ := reset_ok hlim hd hi
          have : lifeReset c st0 = .ok (t1, o) := by
            obtain ⟨st2, o2, f1, -, -, -, f5⟩ := fireReset_ok hlim hd hi.core hi.h0
            rw [u1] at f1
            cases f1
            exact f5 hfire
          obtain ⟨w2, x2, m1, -, -, m4, -⟩ := lifeReset_ok hlim hd hi.core hi.h0
          rw [this] at m1
          cases m1
          have e : (call c st0 .reset).1 = t' := by simp only [call, u2]
          simp only [after, List.foldl_cons, e]
          exact ih t' u3 (by rw [u7, m4 hl]; exact h) fun a ha => hno a (by simp [ha])
    rw [hst]
    exact key ops _ (init_inv c s zero) rfl hno
  refine ⟨st', o, by simp only [call, k2], k5, ?_, ?_⟩
  · intro hc
    have : c.episodeLife = false ∨ st.life.needsRealReset = true := by
      by_cases hl : c.episodeLife = true
      · right
        rcases hc with hc | hc | ⟨ops', a, e1, e2, e3⟩
        · rw [hl] at hc; cases hc
        · exact hnostep hc hl
        · exact (hover ops' a e1 e2 hl).2 e3
      · left; simpa using hl
    obtain ⟨recs, n1, n2, n3, -⟩ := m5 this
    exact ⟨recs, by rw [k4, n1], n2, n3⟩
  · rintro hl ⟨ops', a, e1, e2⟩ hno
    have : st.life.needsRealReset = false := by
      by_contra hh
      exact hno ((hover ops' a e1 e2 hl).1 (by simpa using hh))
    obtain ⟨t1, recs, last, out, n1, n2, -, n4⟩ := m6 hl this
    refine ⟨recs, by rw [k4, n2, n1.log], n1.skipped, ?_⟩
    rw [n4]
    exact n1.obs

/-- The agent steps only if the episode has not ended, and does not reset twice in a row. -/
def Spec.Plays : Option (Ret (List W) ℚ) → List (Op A × Ret (List W) ℚ) → Prop
  | _, [] => True
  | prev, (op, r) :: rest => (match op, prev with
      | .step _, some (.obs _) => True
      | .step _, some (.stepped o) => o.done = false ∧ o.needsReset = false
      | .step _, _ => False
      | .reset, some (.obs _) => False
      | .reset, _ => True) ∧ Spec.Plays (some r) rest

/-- What is known after the return `prev`. -/
def Phase (c : Cfg S A O W) (st : St S A O W) : Option (Ret (List W) ℚ) → Prop
  | none => Resettable c st
  | some (.obs _) => st.elapsed ≠ none ∧ Within c st
  | some (.stepped o) => st.elapsed ≠ none ∧ Resettable c st ∧ (o.ended = false → Within c st)
  | some .refused => False

theorem run_peak [Max O] {c : Cfg S A O W} (hlim : 0 < c.limit) (hd : ∀ i, 0 < c.draws i) {s0 : S} : ∀ (ops : List (Op A)) (st : St S A O W)
    (prev : Option (Ret (List W) ℚ)), Inv c s0 st → Phase c st prev → Spec.Plays prev (ops.zip ((run c st ops).map Prod.snd)) →
    ∀ p ∈ run c st ops, Peak c.limit p.1.log
  | [], _, _, _, _, _ => by simp [run]
  | op :: ops, st, prev, hi, hp, hplay => by
    simp only [run, List.map_cons, List.zip_cons_cons, Spec.Plays] at hplay
    obtain ⟨hop, hrest⟩ := hplay
    have hinv := (call_inv hlim hd hi op).1
    have key : Phase c (call c st op).1 (some (call c st op).2) ∧ Peak c.limit (call c st op).1.log := by
      cases op with
      | step a =>
        have hw : st.elapsed ≠ none ∧ Within c st := by
          match prev, hop, hp with
          | some (.obs _), _, hp => exact hp
          | some (.stepped o), hop, hp =>
            exact ⟨hp.1, hp.2.2 (by simp only at hop; simp [Out.ended, hop.1, hop.2])⟩
        obtain ⟨st1, st', out1, out, k1, k2, k3, k4, k5, k6, k7, k8, k9, k10⟩ := step_ok hi hw.1 a
        obtain ⟨hl, -⟩ := hi.live hw.1
        obtain ⟨w1, w2⟩ := lifeStep_within hl hw.2 k1
        simp only [call, k2, Phase]
        refine ⟨⟨k10, ⟨k4 ▸ w1.1, by rw [k7, k6]; exact w1.2⟩, fun he => ?_⟩, k4 ▸ w1.1⟩
        rw [k9] at he
        have := w2 he
        exact ⟨k4 ▸ this.1, by rw [k6]; exact this.2⟩
      | reset =>
        have hr : Resettable c st := by
          match prev, hop, hp with
          | none, _, hp => exact hp
          | some (.stepped o), _, hp => exact hp.2.1
        obtain ⟨st1, st', o, k1, k2, k3, -, -, k6, -, k8⟩ := reset_ok hlim hd hi
        simp only [call, k2, Phase]
        exact ⟨⟨k6, k8 hr⟩, (k8 hr).1⟩
    intro p hpm
    rcases List.mem_cons.1 hpm with rfl | hpm
    · exact key.2
    · exact run_peak hlim hd ops _ _ hinv key.1 hrest p hpm

/-- **C111 (limit, partial).** If the agent steps only while the episode has not ended and does not reset twice in a row, the game is
never played for more than `max_frames + 1` frames without a reset, also with lives as episodes, no-ops and `fire_reset`.

What is missing: the limit itself can be exceeded by that one frame; see `atari_limit_exceeded`. -/
theorem atari_limit_partial [Max O] (c : Cfg S A O W) (hlim : 0 < c.limit) (hd : ∀ i, 0 < c.draws i) (s : S) (zero : O) (ops : List (Op A))
    (hplay : Spec.Plays none (ops.zip ((run c (St.init s zero) ops).map Prod.snd))) :
    ∀ p ∈ run c (St.init s zero) ops, ∀ log, log <+: p.1.log → ∀ n, Spec.since log = some n → n ≤ c.limit + 1 := by
  refine run_peak hlim hd ops _ none (init_inv c s zero) ⟨?_, fun _ h => by cases h⟩ hplay
  intro l hl n hn
  have : l = [] := List.prefix_nil.1 hl
  subst this
  cases hn

/-- A game of one-pixel frames that counts its frames, with three lives, of which the first is lost in frame 5. -/
def fifth (limit : ℕ) (episodeLife : Bool) : Cfg ℕ ℕ ℕ ℕ where
  g := ⟨fun s _ => (s + 1, ⟨s + 1, 2, false, false⟩), fun _ => (0, 0)⟩
  lives s := if s < 5 then 3 else 2
  noop := 0
  limit := limit
  draws _ := 1
  warp x := x
  episodeLife := episodeLife
  clip := true
  fire := none

/-- **C111 fails.** With `max_frames = 6` an agent that resets exactly when the episode has ended plays this game for seven frames: the
no-op made after the loss of the life reaches the limit, and that is not noticed. -/
theorem atari_limit_exceeded :
    ((run (fifth 6 true) (St.init 0 0) [.reset, .step 1, .reset, .step 1, .reset]).map fun p => (p.2, Spec.since p.1.log)) =
      [(.obs [1, 1, 1, 1], some 1), (.stepped ⟨[1, 1, 1, 5], 1, true, false⟩, some 5), (.obs [5, 5, 5, 5], some 6),
        (.stepped ⟨[5, 5, 5, 5], 1, false, true⟩, some 7), (.obs [1, 1, 1, 1], some 1)] ∧
    Spec.Plays none ([Op.reset, .step 1, .reset, .step 1, .reset].zip
      ((run (fifth 6 true) (St.init 0 0) [.reset, .step 1, .reset, .step 1, .reset]).map Prod.snd)) := by
  have e : ((run (fifth 6 true) (St.init 0 0) [.reset, .step 1, .reset, .step 1, .reset]).map fun p => (p.2, Spec.since p.1.log)) =
      [(.obs [1, 1, 1, 1], some 1), (.stepped ⟨[1, 1, 1, 5], 1, true, false⟩, some 5), (.obs [5, 5, 5, 5], some 6),
        (.stepped ⟨[5, 5, 5, 5], 1, false, true⟩, some 7), (.obs [1, 1, 1, 1], some 1)] := by decide +kernel
  refine ⟨e, ?_⟩
  have e2 := congrArg (List.map Prod.fst) e
  simp only [List.map_map, Function.comp_def] at e2
  rw [show Prod.snd (α := St ℕ ℕ ℕ ℕ) (β := Ret (List ℕ) ℚ) = fun p => p.2 from rfl, e2]
  simp [Spec.Plays]

/-! ## Non-vacuity -/

/-- Several episodes without lives: the limit ends the first one, in the middle of a skip. -/
example : ((run (fifth 7 false) (St.init 0 0) [.step 3, .reset, .step 1, .step 1, .reset, .step 2]).map fun p => (p.2, Spec.since p.1.log)) =
    [(.refused, none), (.obs [1, 1, 1, 1], some 1), (.stepped ⟨[1, 1, 1, 5], 1, false, false⟩, some 5),
      (.stepped ⟨[1, 1, 5, 5], 1, false, true⟩, some 7), (.obs [1, 1, 1, 1], some 1), (.stepped ⟨[1, 1, 1, 5], 1, false, false⟩, some 5)] := by
  decide +kernel

/-- With `fire_reset`. -/
example : ((run { fifth 100 true with fire := some (1, 2) } (St.init 0 0) [.reset, .step 3]).map fun p => (p.2, Spec.since p.1.log)) =
    [(.obs [13, 13, 13, 13], some 13), (.stepped ⟨[13, 13, 13, 17], 1, false, false⟩, some 17)] := by decide +kernel

end Pfrl.Envs.Atari
