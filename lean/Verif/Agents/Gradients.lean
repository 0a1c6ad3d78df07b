import Verif.Basic
import Mathlib.Algebra.Module.Basic
import Mathlib.Algebra.BigOperators.Group.List.Basic
import Mathlib.Data.Fintype.Basic
import Mathlib.Logic.Function.Basic
import Mathlib.Algebra.Order.Ring.Rat
import Mathlib.Tactic.Ring

/-!
# Which gradient every optimiser step uses

PyTorch adds gradients to the `.grad` attribute of every parameter a loss reaches, and an optimiser uses
whatever is there.  The losses of an agent share networks: DDPG's, TD3's and SAC's policy losses leave gradients
in the Q-functions; REINFORCE adds up several backward passes on purpose; A3C and ACER compute gradients on a local
copy and hand them over to parameters shared with other processes.  This file models the `.grad` attributes, the
calls of `zero_grad`, `backward`, `clip_l2_grad_norm_` and `step` in the order of the code, and proves that every step
of every agent uses the gradient of its own loss only, for any history of updates.

The loss functions, the optimisers and gradient clipping are parameters; a network is one value `P` with gradient `G`.
-/

namespace Pfrl.Gradients

variable {P G S D : Type*}

/-! ## Model -/

/-- A network with its `.grad` attribute (`None` or a tensor) and the state of its optimiser. -/
structure Net (P G S : Type*) where
  param : P
  grad : Option G
  opt : S

/-- An optimiser: `step()` reads `.grad`; it may skip a parameter whose `.grad` is `None`. -/
abbrev Opt (P G S : Type*) := S → P → Option G → S × P

section
variable [AddCommMonoid G]

/-- `zero_grad()`.  Newer versions of PyTorch set `.grad` to `None`, older ones fill an existing tensor with
zeros: both behaviours, chosen by `setToNone`. -/
def Net.zeroGrad (setToNone : Bool) (n : Net P G S) : Net P G S :=
  { n with grad := n.grad.bind fun _ => if setToNone then none else some 0 }

/-- The effect of `loss.backward()` on a network the loss reaches with gradient `g`. -/
def Net.backward (g : G) (n : Net P G S) : Net P G S :=
  { n with grad := match n.grad with
      | none => some g
      | some a => some (a + g) }

omit [AddCommMonoid G] in
/-- `if self.max_grad_norm is not None: clip_l2_grad_norm_(...)`: `clip = none` iff `max_grad_norm is None`.
What clipping computes is the subject of `Verif.Utils.ClipNorm`; `None` gradients are skipped,
`pfrl/utils/clip_l2_grad_norm.py:29`. -/
def Net.clipGrad (clip : Option (G → G)) (n : Net P G S) : Net P G S :=
  match clip with
  | none => n
  | some f => { n with grad := n.grad.map f }

omit [AddCommMonoid G] in
/-- `optimizer.step()`. -/
def Net.step (o : Opt P G S) (n : Net P G S) : Net P G S :=
  { n with opt := (o n.opt n.param n.grad).1, param := (o n.opt n.param n.grad).2 }

/-! ### One network: DQN, A2C, PPO, TRPO's value function -/

/-- `DQN.update` and `update_from_episodes`, `pfrl/agents/dqn.py:353-365, 379-386`; `A2C.update`,
`a2c.py:176-199`; the body of the loop of `PPO._update` and `PPO._update_once_recurrent`, `ppo.py:489-532, 588-606`;
TRPO's value function, `trpo.py:373-380, 408-413`.  The loss is computed, then `zero_grad`, `backward`, clipping, `step`
(PPO calls `zero_grad` between the forward pass and the computation of the loss, which makes no difference to `.grad`).
`grad d θ` is the gradient of the loss of minibatch `d` at parameters `θ`. -/
def oneNetUpdate (setToNone : Bool) (clip : Option (G → G)) (o : Opt P G S) (grad : D → P → G) (n : Net P G S)
    (d : D) : Net P G S :=
  let g := grad d n.param
  (((n.zeroGrad setToNone).backward g).clipGrad clip).step o

/-! ### DDPG -/

/-- `self.model = [policy, q_func]` and `self.target_model`, `pfrl/agents/ddpg.py:84, 124`. -/
structure Ddpg (P G S : Type*) where
  policy : Net P G S
  q : Net P G S
  targetPolicy : P
  targetQ : P

/-- The losses of DDPG.  `critic`: gradient of the critic loss with respect to the Q-function, which also reads the target
networks; `actor`, `actorQ`: gradients of the actor loss with respect to the policy and to the Q-function. -/
structure DdpgFns (P G S D : Type*) where
  criticOpt : Opt P G S
  actorOpt : Opt P G S
  critic : D → P → P → P → G
  actor : D → P → P → G
  actorQ : D → P → P → G

/-- `DDPG.update`, `pfrl/agents/ddpg.py:189-202`, with `compute_critic_loss` and `compute_actor_loss`, lines 141-187: the
target networks are only evaluated under `torch.no_grad()`, the actor loss reaches both networks. -/
def Ddpg.update (setToNone : Bool) (f : DdpgFns P G S D) (s : Ddpg P G S) (d : D) : Ddpg P G S :=
  let s := { s with q := s.q.zeroGrad setToNone }
  let s := { s with q := s.q.backward (f.critic d s.targetPolicy s.targetQ s.q.param) }
  let s := { s with q := s.q.step f.criticOpt }
  let s := { s with policy := s.policy.zeroGrad setToNone }
  let gp := f.actor d s.policy.param s.q.param
  let gq := f.actorQ d s.policy.param s.q.param
  let s := { s with policy := s.policy.backward gp, q := s.q.backward gq }
  { s with policy := s.policy.step f.actorOpt }

/-! ### TD3 -/

/-- The networks of TD3 and its counter, `pfrl/agents/td3.py:143-151`. -/
structure Td3 (P G S : Type*) where
  policy : Net P G S
  q1 : Net P G S
  q2 : Net P G S
  targetPolicy : P
  targetQ1 : P
  targetQ2 : P
  nQ : Nat

/-- The losses of TD3: `critic1`, `critic2` read the target policy and both target Q-functions;
`actor` reads the first Q-function only.  `soft src dst` is the soft update. -/
structure Td3Fns (P G S D : Type*) where
  opt1 : Opt P G S
  opt2 : Opt P G S
  policyOpt : Opt P G S
  clip : Option (G → G)
  critic1 : D → P → P → P → P → G
  critic2 : D → P → P → P → P → G
  actor : D → P → P → G
  actorQ : D → P → P → G
  soft : P → P → P
  delay : Nat

/-- `TD3.update_q_func`, `pfrl/agents/td3.py:181-231`. -/
def Td3.updateQ (setToNone : Bool) (f : Td3Fns P G S D) (s : Td3 P G S) (d : D) : Td3 P G S :=
  let g1 := f.critic1 d s.targetPolicy s.targetQ1 s.targetQ2 s.q1.param
  let g2 := f.critic2 d s.targetPolicy s.targetQ1 s.targetQ2 s.q2.param
  let s := { s with q1 := s.q1.zeroGrad setToNone }
  let s := { s with q1 := s.q1.backward g1 }
  let s := { s with q1 := s.q1.clipGrad f.clip }
  let s := { s with q1 := s.q1.step f.opt1 }
  let s := { s with q2 := s.q2.zeroGrad setToNone }
  let s := { s with q2 := s.q2.backward g2 }
  let s := { s with q2 := s.q2.clipGrad f.clip }
  let s := { s with q2 := s.q2.step f.opt2 }
  { s with nQ := s.nQ + 1 }

/-- `TD3.update_policy`, `pfrl/agents/td3.py:233-250`. -/
def Td3.updatePolicy (setToNone : Bool) (f : Td3Fns P G S D) (s : Td3 P G S) (d : D) : Td3 P G S :=
  let gp := f.actor d s.policy.param s.q1.param
  let gq := f.actorQ d s.policy.param s.q1.param
  let s := { s with policy := s.policy.zeroGrad setToNone }
  let s := { s with policy := s.policy.backward gp, q1 := s.q1.backward gq }
  let s := { s with policy := s.policy.clipGrad f.clip }
  { s with policy := s.policy.step f.policyOpt }

omit [AddCommMonoid G] in
/-- `TD3.sync_target_network`, `pfrl/agents/td3.py:160-179`. -/
def Td3.sync (f : Td3Fns P G S D) (s : Td3 P G S) : Td3 P G S :=
  { s with targetPolicy := f.soft s.policy.param s.targetPolicy
           targetQ1 := f.soft s.q1.param s.targetQ1
           targetQ2 := f.soft s.q2.param s.targetQ2 }

/-- `TD3.update`, `pfrl/agents/td3.py:252-259`. -/
def Td3.update (setToNone : Bool) (f : Td3Fns P G S D) (s : Td3 P G S) (d : D) : Td3 P G S :=
  let s := s.updateQ setToNone f d
  if s.nQ % f.delay = 0 then (s.updatePolicy setToNone f d).sync f else s

/-! ### Soft actor-critic -/

/-- The networks of SAC, `pfrl/agents/soft_actor_critic.py:116-181`; `temp` is `temperature_holder`. -/
structure Sac (P G S : Type*) where
  policy : Net P G S
  q1 : Net P G S
  q2 : Net P G S
  temp : Net P G S
  targetQ1 : P
  targetQ2 : P

/-- The losses of SAC.  `critic1 d policy targetQ1 targetQ2 temp q1`; the policy loss is a function of
`policy q1 q2 temp` and reaches the first three, not the temperature (`self.temperature` is a float);
`tempGrad d policy temp` is the gradient of the temperature loss, for the log probabilities the policy gave. -/
structure SacFns (P G S D : Type*) where
  opt1 : Opt P G S
  opt2 : Opt P G S
  policyOpt : Opt P G S
  tempOpt : Opt P G S
  clip : Option (G → G)
  critic1 : D → P → P → P → P → P → G
  critic2 : D → P → P → P → P → P → G
  actor : D → P → P → P → P → G
  actorQ1 : D → P → P → P → P → G
  actorQ2 : D → P → P → P → P → G
  tempGrad : D → P → P → G
  soft : P → P → P
  learnTemp : Bool

/-- `SoftActorCritic.update_q_func`, `pfrl/agents/soft_actor_critic.py:214-262`. -/
def Sac.updateQ (setToNone : Bool) (f : SacFns P G S D) (s : Sac P G S) (d : D) : Sac P G S :=
  let g1 := f.critic1 d s.policy.param s.targetQ1 s.targetQ2 s.temp.param s.q1.param
  let g2 := f.critic2 d s.policy.param s.targetQ1 s.targetQ2 s.temp.param s.q2.param
  let s := { s with q1 := s.q1.zeroGrad setToNone }
  let s := { s with q1 := s.q1.backward g1 }
  let s := { s with q1 := s.q1.clipGrad f.clip }
  let s := { s with q1 := s.q1.step f.opt1 }
  let s := { s with q2 := s.q2.zeroGrad setToNone }
  let s := { s with q2 := s.q2.backward g2 }
  let s := { s with q2 := s.q2.clipGrad f.clip }
  { s with q2 := s.q2.step f.opt2 }

/-- `SoftActorCritic.update_temperature`, `pfrl/agents/soft_actor_critic.py:264-271`; `g` is the gradient of the loss
for the given `log_prob`. -/
def Sac.updateTemp (setToNone : Bool) (f : SacFns P G S D) (s : Sac P G S) (g : P → G) : Sac P G S :=
  let gt := g s.temp.param
  let s := { s with temp := s.temp.zeroGrad setToNone }
  let s := { s with temp := s.temp.backward gt }
  let s := { s with temp := s.temp.clipGrad f.clip }
  { s with temp := s.temp.step f.tempOpt }

/-- `SoftActorCritic.update_policy_and_temperature`, `pfrl/agents/soft_actor_critic.py:273-298`.  `log_prob` is
computed before the policy's step and used after it. -/
def Sac.updatePolicy (setToNone : Bool) (f : SacFns P G S D) (s : Sac P G S) (d : D) : Sac P G S :=
  let gp := f.actor d s.policy.param s.q1.param s.q2.param s.temp.param
  let gq1 := f.actorQ1 d s.policy.param s.q1.param s.q2.param s.temp.param
  let gq2 := f.actorQ2 d s.policy.param s.q1.param s.q2.param s.temp.param
  let gt := f.tempGrad d s.policy.param
  let s := { s with policy := s.policy.zeroGrad setToNone }
  let s := { s with policy := s.policy.backward gp, q1 := s.q1.backward gq1, q2 := s.q2.backward gq2 }
  let s := { s with policy := s.policy.clipGrad f.clip }
  let s := { s with policy := s.policy.step f.policyOpt }
  if f.learnTemp then s.updateTemp setToNone f gt else s

/-- `SoftActorCritic.update`, `pfrl/agents/soft_actor_critic.py:310-315`, with `sync_target_network`, lines 199-212. -/
def Sac.update (setToNone : Bool) (f : SacFns P G S D) (s : Sac P G S) (d : D) : Sac P G S :=
  let s := s.updateQ setToNone f d
  let s := s.updatePolicy setToNone f d
  { s with targetQ1 := f.soft s.q1.param s.targetQ1, targetQ2 := f.soft s.q2.param s.targetQ2 }

end

/-! ### A3C and ACER: local models and a shared one -/

/-- What a process is about to do.  `params` holds between updates and while the process acts. -/
inductive Pc where
  | acting | zeroed | backwarded | clipped | copied | stepped
  deriving DecidableEq, Repr

/-- One process: its `model` with `.grad`, and the `.grad` of the parameters of `shared_model` as this process sees it
(parameters are in shared memory, `.grad` is not). -/
structure Proc (P G : Type*) where
  pc : Pc
  model : P
  grad : Option G
  sharedGrad : Option G

/-- All processes, the shared parameters and the shared optimiser state.  `log` records which process made which step
with which gradient: it is there for the statements. -/
structure World (P G S : Type*) where
  proc : Nat → Proc P G
  shared : P
  opt : S
  log : List (Nat × Option G)

section
variable [AddCommMonoid G]

omit [AddCommMonoid G] in
/-- Process `i` changes its own variables. -/
def World.setProc (w : World P G S) (i : Nat) (p : Proc P G) : World P G S :=
  { w with proc := Function.update w.proc i p }

/-- The next action of process `i` inside `A3C.update`, `pfrl/agents/a3c.py:209-221`, and `ACER.update`,
`acer.py:583-592` (with `sync_parameters`): `zero_grad` on the local model, `backward`, clipping, `copy_grad` to the
shared model (`pfrl/utils/copy_param.py:25-34`: overwrites), `optimizer.step()` on the shared parameters,
`sync_parameters`.  `d` is the data of this update, used by the backward pass.  Simplification: `step()` and
the copy of the parameters are each one action. -/
def World.tick (setToNone : Bool) (clip : Option (G → G)) (o : Opt P G S) (grad : D → P → G) (w : World P G S)
    (i : Nat) (d : D) : World P G S :=
  let p := w.proc i
  let net : Net P G Unit := ⟨p.model, p.grad, ()⟩
  match p.pc with
  | .acting => w.setProc i { p with pc := .zeroed, grad := (net.zeroGrad setToNone).grad }
  | .zeroed => w.setProc i { p with pc := .backwarded, grad := (net.backward (grad d p.model)).grad }
  | .backwarded => w.setProc i { p with pc := .clipped, grad := (net.clipGrad clip).grad }
  | .clipped => w.setProc i { p with pc := .copied, sharedGrad := p.grad }
  | .copied =>
    { (w.setProc i { p with pc := .stepped }) with
      shared := (o w.opt w.shared p.sharedGrad).2
      opt := (o w.opt w.shared p.sharedGrad).1
      log := w.log ++ [(i, p.sharedGrad)] }
  | .stepped => w.setProc i { p with pc := .acting, model := w.shared }

end

/-! ### REINFORCE -/

/-- The state of REINFORCE between episodes: the network, the stored episodes and `n_backward`,
`pfrl/agents/reinforce.py:87-91`. -/
structure Rein (P G S E : Type*) where
  net : Net P G S
  stored : List E
  nBackward : Nat

/-- `accumulate_grad`, `pfrl/agents/reinforce.py:175-195`: `grad e θ` is the gradient of the loss of episode `e`; the sum
over the stored episodes divided by `batchsize`. -/
def Rein.accumulate {E K : Type*} [DivisionRing K] [AddCommMonoid G] [Module K G] (setToNone : Bool) (batchsize : Nat)
    (grad : E → P → G) (s : Rein P G S E) : Rein P G S E :=
  let net := if s.nBackward = 0 then s.net.zeroGrad setToNone else s.net
  let g := ((batchsize : K)⁻¹) • (s.stored.map fun e => grad e net.param).sum
  { net := net.backward g, stored := [], nBackward := s.nBackward + 1 }

/-- The end of an episode in `_observe_train`, `pfrl/agents/reinforce.py:129-154`, with `batch_update` and
`update_with_accumulated_grad`, lines 197-214.  `some e`: an episode ended by `done`; `none`: thrown away (`reset` without
`done`).  `stored` holds the completed episodes. -/
def Rein.endEpisode {E K : Type*} [DivisionRing K] [AddCommMonoid G] [Module K G] (setToNone : Bool) (separately : Bool)
    (batchsize : Nat) (clip : Option (G → G)) (o : Opt P G S) (grad : E → P → G) (s : Rein P G S E) :
    Option E → Rein P G S E
  | none => s
  | some e =>
    let s := { s with stored := s.stored ++ [e] }
    if separately then
      let s := s.accumulate (K := K) setToNone batchsize grad
      if s.nBackward = batchsize then
        { s with net := (s.net.clipGrad clip).step o, nBackward := 0 }
      else s
    else
      if s.stored.length = batchsize then
        let s := s.accumulate (K := K) setToNone batchsize grad
        { s with net := (s.net.clipGrad clip).step o, nBackward := 0 }
      else s

/-! ## Specification -/

/-- Parameters and optimiser state of a network, without `.grad`. -/
def Net.value (n : Net P G S) : P × S := (n.param, n.opt)

/-- Gradient descent proper: one step of the optimiser with a (clipped) gradient. -/
def descend (o : Opt P G S) (clip : Option (G → G)) (v : P × S) (g : G) : P × S :=
  let g' := match clip with
    | none => g
    | some f => f g
  ((o v.2 v.1 (some g')).2, (o v.2 v.1 (some g')).1)

/-- DDPG as in the paper: the critic descends its loss, then the actor descends its loss under the new critic. -/
structure DdpgSpec (P S : Type*) where
  policy : P × S
  q : P × S
  targetPolicy : P
  targetQ : P

def DdpgSpec.update (f : DdpgFns P G S D) (v : DdpgSpec P S) (d : D) : DdpgSpec P S :=
  let q := descend f.criticOpt none v.q (f.critic d v.targetPolicy v.targetQ v.q.1)
  { v with q := q, policy := descend f.actorOpt none v.policy (f.actor d v.policy.1 q.1) }

def Ddpg.value (s : Ddpg P G S) : DdpgSpec P S := ⟨s.policy.value, s.q.value, s.targetPolicy, s.targetQ⟩

/-- TD3 as in the paper: both critics descend their losses; every `delay` updates the actor descends its
loss under the new first critic and all targets move. -/
structure Td3Spec (P S : Type*) where
  policy : P × S
  q1 : P × S
  q2 : P × S
  targetPolicy : P
  targetQ1 : P
  targetQ2 : P
  nQ : Nat

def Td3Spec.update (f : Td3Fns P G S D) (v : Td3Spec P S) (d : D) : Td3Spec P S :=
  let q1 := descend f.opt1 f.clip v.q1 (f.critic1 d v.targetPolicy v.targetQ1 v.targetQ2 v.q1.1)
  let q2 := descend f.opt2 f.clip v.q2 (f.critic2 d v.targetPolicy v.targetQ1 v.targetQ2 v.q2.1)
  if (v.nQ + 1) % f.delay = 0 then
    let policy := descend f.policyOpt f.clip v.policy (f.actor d v.policy.1 q1.1)
    ⟨policy, q1, q2, f.soft policy.1 v.targetPolicy, f.soft q1.1 v.targetQ1, f.soft q2.1 v.targetQ2, v.nQ + 1⟩
  else { v with q1 := q1, q2 := q2, nQ := v.nQ + 1 }

def Td3.value (s : Td3 P G S) : Td3Spec P S :=
  ⟨s.policy.value, s.q1.value, s.q2.value, s.targetPolicy, s.targetQ1, s.targetQ2, s.nQ⟩

/-- SAC as in the paper: both critics, then the actor under the new critics and the old temperature, then the
temperature for the log probabilities of the old policy, then the targets. -/
structure SacSpec (P S : Type*) where
  policy : P × S
  q1 : P × S
  q2 : P × S
  temp : P × S
  targetQ1 : P
  targetQ2 : P

def SacSpec.update (f : SacFns P G S D) (v : SacSpec P S) (d : D) : SacSpec P S :=
  let q1 := descend f.opt1 f.clip v.q1 (f.critic1 d v.policy.1 v.targetQ1 v.targetQ2 v.temp.1 v.q1.1)
  let q2 := descend f.opt2 f.clip v.q2 (f.critic2 d v.policy.1 v.targetQ1 v.targetQ2 v.temp.1 v.q2.1)
  let policy := descend f.policyOpt f.clip v.policy (f.actor d v.policy.1 q1.1 q2.1 v.temp.1)
  let temp := if f.learnTemp then descend f.tempOpt f.clip v.temp (f.tempGrad d v.policy.1 v.temp.1) else v.temp
  ⟨policy, q1, q2, temp, f.soft q1.1 v.targetQ1, f.soft q2.1 v.targetQ2⟩

def Sac.value (s : Sac P G S) : SacSpec P S :=
  ⟨s.policy.value, s.q1.value, s.q2.value, s.temp.value, s.targetQ1, s.targetQ2⟩

/-- A process of asynchronous gradient descent: its parameters, and the data and parameters of the gradient it is
about to apply. -/
structure AProc (P D : Type*) where
  pc : Pc
  model : P
  pending : Option (D × P)

/-- Asynchronous gradient descent without `.grad` attributes. -/
structure AWorld (P S D : Type*) where
  proc : Nat → AProc P D
  shared : P × S
  log : List (Nat × D × P)

/-- Processes choose a gradient at their own parameters, apply it to the shared parameters, and fetch these. -/
def AWorld.tick (clip : Option (G → G)) (o : Opt P G S) (grad : D → P → G) (w : AWorld P S D) (i : Nat) (d : D) :
    AWorld P S D :=
  let p := w.proc i
  let set := fun q => Function.update w.proc i q
  match p.pc with
  | .acting => { w with proc := set { p with pc := .zeroed } }
  | .zeroed => { w with proc := set { p with pc := .backwarded, pending := some (d, p.model) } }
  | .backwarded => { w with proc := set { p with pc := .clipped } }
  | .clipped => { w with proc := set { p with pc := .copied } }
  | .copied =>
    match p.pending with
    | none => w
    | some (d, θ) =>
      { proc := set { p with pc := .stepped }, shared := descend o clip w.shared (grad d θ),
        log := w.log ++ [(i, d, θ)] }
  | .stepped => { w with proc := set { p with pc := .acting, model := w.shared.1 } }

/-- The clipped gradient. -/
def clipped (clip : Option (G → G)) (g : G) : G :=
  match clip with
  | none => g
  | some f => f g

/-- REINFORCE with batches of `n` episodes: the first `n` episodes give one step with the mean gradient at
the current parameters, and so on; an incomplete batch gives none. -/
def reinforceSpec {E K : Type*} [DivisionRing K] [AddCommMonoid G] [Module K G] (n : Nat) (clip : Option (G → G))
    (o : Opt P G S) (grad : E → P → G) : Nat → List E → P × S → P × S
  | 0, _, v => v
  | fuel + 1, es, v =>
    if es.length < n then v
    else reinforceSpec (K := K) n clip o grad fuel (es.drop n)
      (descend o clip v ((n : K)⁻¹ • ((es.take n).map fun e => grad e v.1).sum))

/-! ## C90: every optimiser step uses the gradient of its own loss -/

section
variable [AddCommMonoid G]

theorem value_step (b : Bool) (clip : Option (G → G)) (o : Opt P G S) (g : G) (n : Net P G S) :
    ((((n.zeroGrad b).backward g).clipGrad clip).step o).value = descend o clip n.value g := by
  obtain ⟨p, gr, op⟩ := n
  cases gr <;> cases b <;> cases clip <;>
    simp [Net.zeroGrad, Net.backward, Net.clipGrad, Net.step, Net.value, descend]

theorem value_step' (b : Bool) (o : Opt P G S) (g : G) (n : Net P G S) :
    (((n.zeroGrad b).backward g).step o).value = descend o none n.value g :=
  value_step b none o g n

/-- C90 for the agents with one network (DQN and its relatives, A2C, PPO, TRPO's value function): after any
sequence of updates, whatever was in `.grad` at the start, the parameters and the optimiser's state are those
of descending the (clipped) gradient of each minibatch's own loss. -/
theorem one_net_gradients (b : Bool) (clip : Option (G → G)) (o : Opt P G S) (grad : D → P → G) (n : Net P G S)
    (ds : List D) :
    (ds.foldl (oneNetUpdate b clip o grad) n).value =
      ds.foldl (fun v d => descend o clip v (grad d v.1)) n.value := by
  induction ds generalizing n with
  | nil => rfl
  | cons d ds ih =>
    simp only [List.foldl_cons]
    rw [ih]
    congr 1
    exact value_step b clip o (grad d n.param) n

/-- C90 for DDPG. -/
theorem ddpg_gradients (b : Bool) (f : DdpgFns P G S D) (s : Ddpg P G S) (ds : List D) :
    (ds.foldl (Ddpg.update b f) s).value = ds.foldl (DdpgSpec.update f) s.value := by
  induction ds generalizing s with
  | nil => rfl
  | cons d ds ih =>
    simp only [List.foldl_cons]
    rw [ih]
    congr 1
    obtain ⟨⟨pp, pg, po⟩, ⟨qp, qg, qo⟩, tp, tq⟩ := s
    cases pg <;> cases qg <;> cases b <;>
      simp [Ddpg.update, Ddpg.value, DdpgSpec.update, Net.zeroGrad, Net.backward, Net.step, Net.value, descend]

theorem step_param (b : Bool) (clip : Option (G → G)) (o : Opt P G S) (g : G) (n : Net P G S) :
    ((((n.zeroGrad b).backward g).clipGrad clip).step o).param = (descend o clip n.value g).1 :=
  congrArg Prod.fst (value_step b clip o g n)

theorem backward_value (g : G) (n : Net P G S) : (n.backward g).value = n.value := rfl

/-- C90 for TD3. -/
theorem td3_gradients (b : Bool) (f : Td3Fns P G S D) (s : Td3 P G S) (ds : List D) :
    (ds.foldl (Td3.update b f) s).value = ds.foldl (Td3Spec.update f) s.value := by
  induction ds generalizing s with
  | nil => rfl
  | cons d ds ih =>
    simp only [List.foldl_cons]
    rw [ih]
    congr 1
    obtain ⟨n1, n2, n3, tp, t1, t2, k⟩ := s
    have hb : ∀ (g : G) (n : Net P G S), (n.backward g).param = n.param := fun _ _ => rfl
    simp only [Td3.update, Td3.updateQ, Td3Spec.update, Td3.value]
    by_cases hd : (k + 1) % f.delay = 0
    · simp only [hd, if_true, Td3.sync, Td3.updatePolicy, backward_value, value_step, hb, step_param]
      rfl
    · simp only [hd, if_false, value_step]
      rfl

/-- C90 for SAC. -/
theorem sac_gradients (b : Bool) (f : SacFns P G S D) (s : Sac P G S) (ds : List D) :
    (ds.foldl (Sac.update b f) s).value = ds.foldl (SacSpec.update f) s.value := by
  induction ds generalizing s with
  | nil => rfl
  | cons d ds ih =>
    simp only [List.foldl_cons]
    rw [ih]
    congr 1
    obtain ⟨n1, n2, n3, n4, t1, t2⟩ := s
    have hb : ∀ (g : G) (n : Net P G S), (n.backward g).param = n.param := fun _ _ => rfl
    simp only [Sac.update, Sac.updateQ, SacSpec.update, Sac.value, Sac.updatePolicy]
    by_cases hd : f.learnTemp = true
    · simp only [hd, if_true, Sac.updateTemp, backward_value, value_step, hb, step_param]
      rfl
    · simp only [hd, Bool.false_eq_true, if_false, backward_value, value_step, hb, step_param]
      rfl

/-- What `.grad` holds at each point of an update. -/
def GradOk (clip : Option (G → G)) (grad : D → P → G) (p : Proc P G) (pending : Option (D × P)) : Pc → Prop
  | .acting => True
  | .zeroed => p.grad = none ∨ p.grad = some 0
  | .backwarded => ∃ x, pending = some x ∧ p.grad = some (grad x.1 x.2)
  | .clipped => ∃ x, pending = some x ∧ p.grad = some (clipped clip (grad x.1 x.2))
  | .copied => ∃ x, pending = some x ∧ p.sharedGrad = some (clipped clip (grad x.1 x.2))
  | .stepped => True

/-- One process in both worlds. -/
def PRel (clip : Option (G → G)) (grad : D → P → G) (p : Proc P G) (q : AProc P D) : Prop :=
  p.pc = q.pc ∧ p.model = q.model ∧ GradOk clip grad p q.pending p.pc

/-- Both worlds. -/
structure Rel (clip : Option (G → G)) (grad : D → P → G) (w : World P G S) (a : AWorld P S D) : Prop where
  shared : a.shared = (w.shared, w.opt)
  proc : ∀ i, PRel clip grad (w.proc i) (a.proc i)
  log : w.log = a.log.map fun e => (e.1, some (clipped clip (grad e.2.1 e.2.2)))

theorem prel_update {clip : Option (G → G)} {grad : D → P → G} {f : Nat → Proc P G} {g : Nat → AProc P D}
    (h : ∀ i, PRel clip grad (f i) (g i)) (i : Nat) {p : Proc P G} {q : AProc P D} (hp : PRel clip grad p q) (j : Nat) :
    PRel clip grad (Function.update f i p j) (Function.update g i q j) := by
  by_cases hj : j = i
  · subst hj; simpa using hp
  · simpa [Function.update_of_ne hj] using h j

theorem rel_tick (b : Bool) (clip : Option (G → G)) (o : Opt P G S) (grad : D → P → G) (w : World P G S)
    (a : AWorld P S D) (h : Rel clip grad w a) (i : Nat) (d : D) :
    Rel clip grad (w.tick b clip o grad i d) (a.tick clip o grad i d) := by
  obtain ⟨hs, hproc, hl⟩ := h
  obtain ⟨hpc, hm, hg⟩ := hproc i
  cases hw : (w.proc i).pc
  all_goals
    rw [hw] at hpc hg
    simp only [World.tick, AWorld.tick, hw, ← hpc]
  · refine ⟨hs, ?_, hl⟩
    apply prel_update hproc i
    refine ⟨rfl, hm, ?_⟩
    simp only [GradOk, Net.zeroGrad]
    cases (w.proc i).grad <;> cases b <;> simp
  · refine ⟨hs, ?_, hl⟩
    apply prel_update hproc i
    refine ⟨rfl, hm, (d, (a.proc i).model), rfl, ?_⟩
    simp only [GradOk] at hg
    rcases hg with hg | hg <;> simp [Net.backward, hg, hm]
  · obtain ⟨x, hx, hg⟩ := hg
    refine ⟨hs, ?_, hl⟩
    apply prel_update hproc i
    refine ⟨rfl, hm, x, hx, ?_⟩
    cases clip <;> simp [Net.clipGrad, clipped, hg]
  · obtain ⟨x, hx, hg⟩ := hg
    refine ⟨hs, ?_, hl⟩
    apply prel_update hproc i
    exact ⟨rfl, hm, x, hx, hg⟩
  · obtain ⟨⟨d', θ⟩, hx, hg⟩ := hg
    simp only [hx]
    refine ⟨?_, ?_, ?_⟩
    · simp only [hs, descend, hg]
      cases clip <;> rfl
    · apply prel_update hproc i
      exact ⟨rfl, hm, trivial⟩
    · simp [hl, hg]
  · refine ⟨hs, ?_, hl⟩
    apply prel_update hproc i
    exact ⟨rfl, by simp [hs], trivial⟩

/-- C90 for A3C and ACER.  Whatever the schedule of the processes' actions, the shared parameters are those of
asynchronous gradient descent: each process applies, once per update, the (clipped) gradient of its own data at its own copy
of the parameters, which is the value the shared parameters had when it last fetched them.  No gradient of another
update or another process is ever mixed in. -/
theorem async_gradients (b : Bool) (clip : Option (G → G)) (o : Opt P G S) (grad : D → P → G) (w : World P G S)
    (h0 : ∀ i, (w.proc i).pc = .acting) (hl : w.log = []) (sched : List (Nat × D)) :
    let w' := sched.foldl (fun w e => w.tick b clip o grad e.1 e.2) w
    let a' := sched.foldl (fun a e => AWorld.tick clip o grad a e.1 e.2)
      (⟨fun i => ⟨.acting, (w.proc i).model, none⟩, (w.shared, w.opt), []⟩ : AWorld P S D)
    (w'.shared, w'.opt) = a'.shared ∧ (∀ i, (w'.proc i).model = (a'.proc i).model) ∧
      w'.log = a'.log.map (fun e => (e.1, some (clipped clip (grad e.2.1 e.2.2)))) := by
  intro w' a'
  have hrel : Rel clip grad w' a' := by
    have h : Rel clip grad w (⟨fun i => ⟨.acting, (w.proc i).model, none⟩, (w.shared, w.opt), []⟩ : AWorld P S D) := by
      refine ⟨rfl, fun i => ⟨h0 i, rfl, ?_⟩, by simp [hl]⟩
      rw [h0 i]; trivial
    simp only [w', a']
    generalize (⟨fun i => ⟨.acting, (w.proc i).model, none⟩, (w.shared, w.opt), []⟩ : AWorld P S D) = a at h
    clear hl h0 w' a'
    induction sched generalizing w a with
    | nil => exact h
    | cons e sched ih => exact ih _ _ (rel_tick b clip o grad w a h e.1 e.2)
  exact ⟨hrel.shared.symm, fun i => (hrel.proc i).2.1, hrel.log⟩

end

section
variable {E K : Type*} [DivisionRing K] [AddCommMonoid G] [Module K G]

/-- The state of REINFORCE with `pend` episodes of an incomplete batch. -/
def Pending (n : Nat) (separately : Bool) (grad : E → P → G) (s : Rein P G S E) (pend : List E) : Prop :=
  pend.length < n ∧
  if separately then
    s.stored = [] ∧ s.nBackward = pend.length ∧
      (pend ≠ [] → s.net.grad = some ((n : K)⁻¹ • (pend.map fun e => grad e s.net.param).sum))
  else s.stored = pend ∧ s.nBackward = 0

omit [AddCommMonoid G] in
theorem value_clip_step (clip : Option (G → G)) (o : Opt P G S) (n : Net P G S) (g : G) (h : n.grad = some g) :
    ((n.clipGrad clip).step o).value = descend o clip n.value g := by
  cases clip <;> simp [Net.clipGrad, Net.step, Net.value, descend, h]

theorem spec_batch (n fuel : Nat) (hn : 0 < n) (clip : Option (G → G)) (o : Opt P G S) (grad : E → P → G)
    (batch rest : List E) (hb : batch.length = n) (v : P × S) :
    reinforceSpec (K := K) n clip o grad (fuel + 1) (batch ++ rest) v =
      reinforceSpec (K := K) n clip o grad fuel rest
        (descend o clip v ((n : K)⁻¹ • (batch.map fun e => grad e v.1).sum)) := by
  subst hb
  have h : ¬ ((batch ++ rest).length < batch.length) := by simp
  simp only [reinforceSpec, if_neg h, List.drop_left, List.take_left]

theorem reinforce_loop (b separately : Bool) (n : Nat) (hn : 0 < n) (clip : Option (G → G)) (o : Opt P G S)
    (grad : E → P → G) (es : List (Option E)) (s : Rein P G S E) (pend : List E)
    (h : Pending (K := K) n separately grad s pend) (fuel : Nat) (hf : (pend ++ es.filterMap id).length ≤ fuel) :
    (es.foldl (Rein.endEpisode (K := K) b separately n clip o grad) s).net.value =
      reinforceSpec (K := K) n clip o grad fuel (pend ++ es.filterMap id) s.net.value := by
  induction es generalizing s pend fuel with
  | nil =>
    cases fuel with
    | zero => rfl
    | succ k => simp only [List.filterMap_nil, List.append_nil, reinforceSpec, if_pos h.1, List.foldl_nil]
  | cons e es ih =>
    cases e with
    | none =>
      simp only [List.foldl_cons, Rein.endEpisode]
      simpa using ih s pend h fuel (by simpa using hf)
    | some e =>
      simp only [List.foldl_cons]
      have hfm : (some e :: es).filterMap id = e :: es.filterMap id := by simp
      rw [hfm] at hf ⊢
      have happ : pend ++ e :: es.filterMap id = (pend ++ [e]) ++ es.filterMap id := by simp
      obtain ⟨hlt, h⟩ := h
      -- the accumulated gradient covers `pend ++ [e]`
      have hacc : ∃ s1 : Rein P G S E, s1.net.grad =
            some ((n : K)⁻¹ • ((pend ++ [e]).map fun e => grad e s.net.param).sum) ∧
          s1.net.value = s.net.value ∧ s1.stored = [] ∧ (separately = true → s1.nBackward = pend.length + 1) ∧
          (Rein.accumulate (K := K) b n grad { s with stored := s.stored ++ [e] }) = s1 := by
        refine ⟨_, ?_, ?_, ?_, ?_, rfl⟩
        · cases separately with
          | true =>
            simp only [if_true] at h
            obtain ⟨h1, h2, h3⟩ := h
            by_cases hp : pend = []
            · subst hp
              simp only [List.length_nil] at h2
              simp only [Rein.accumulate, h1, h2, if_true, Net.backward, Net.zeroGrad]
              cases s.net.grad <;> cases b <;> simp
            · have h0 : ¬ s.nBackward = 0 := by
                rw [h2]; simpa using hp
              simp only [Rein.accumulate, h1, if_neg h0, Net.backward, h3 hp]
              simp [smul_add]
          | false =>
            simp only [Bool.false_eq_true, if_false] at h
            obtain ⟨h1, h2⟩ := h
            simp only [Rein.accumulate, h1, h2, if_true, Net.backward, Net.zeroGrad]
            cases s.net.grad <;> cases b <;> simp
        · simp only [Rein.accumulate, Net.backward, Net.value, Net.zeroGrad]
          split <;> rfl
        · rfl
        · intro hsep
          subst hsep
          simp only [if_true] at h
          simp [Rein.accumulate, h.2.1]
      obtain ⟨s1, hg, hv, hst, hnb, hs1⟩ := hacc
      have hpar : s1.net.param = s.net.param := congrArg Prod.fst hv
      by_cases hfull : pend.length + 1 = n
      · -- the batch is complete
        have hstep : ∃ s2 : Rein P G S E, Rein.endEpisode (K := K) b separately n clip o grad s (some e) = s2 ∧
            s2.net.value = descend o clip s.net.value
              ((n : K)⁻¹ • ((pend ++ [e]).map fun e => grad e s.net.param).sum) ∧
            Pending (K := K) n separately grad s2 [] := by
          refine ⟨{ s1 with net := (s1.net.clipGrad clip).step o, nBackward := 0 }, ?_, ?_, ?_⟩
          · cases separately with
            | true => simp only [Rein.endEpisode, if_true, hs1, if_pos ((hnb rfl).trans hfull)]
            | false =>
              simp only [Bool.false_eq_true, if_false] at h
              have hl : (s.stored ++ [e]).length = n := by rw [h.1]; simpa using hfull
              simp only [Rein.endEpisode, Bool.false_eq_true, if_false, if_pos hl, hs1]
          · rw [value_clip_step clip o s1.net _ hg, hv]
          · refine ⟨hn, ?_⟩
            cases separately <;> simp [hst]
        obtain ⟨s2, he, hv2, hp2⟩ := hstep
        rw [he]
        cases fuel with
        | zero => simp at hf
        | succ k =>
          rw [ih s2 [] hp2 k (by simp at hf ⊢; omega), happ,
            spec_batch n k hn clip o grad (pend ++ [e]) _ (by simpa using hfull), hv2]
          rfl
      · have hstep : ∃ s2 : Rein P G S E, Rein.endEpisode (K := K) b separately n clip o grad s (some e) = s2 ∧
            s2.net.value = s.net.value ∧ Pending (K := K) n separately grad s2 (pend ++ [e]) := by
          cases separately with
          | true =>
            refine ⟨s1, ?_, hv, ?_⟩
            · have : ¬ s1.nBackward = n := by rw [hnb rfl]; exact hfull
              simp only [Rein.endEpisode, if_true, hs1, if_neg this]
            · refine ⟨by simp; omega, ?_⟩
              simp only [if_true]
              refine ⟨hst, by simp [hnb rfl], fun _ => ?_⟩
              rw [hg, hpar]
          | false =>
            simp only [Bool.false_eq_true, if_false] at h
            have hl : ¬ (s.stored ++ [e]).length = n := by rw [h.1]; simpa using hfull
            refine ⟨{ s with stored := s.stored ++ [e] }, ?_, rfl, by simp; omega, ?_⟩
            · simp only [Rein.endEpisode, Bool.false_eq_true, if_false, if_neg hl]
            · simp [h.1, h.2]
        obtain ⟨s2, he, hv2, hp2⟩ := hstep
        rw [he, ih s2 _ hp2 fuel (by rw [← happ]; exact hf), happ, hv2]

/-- C90 for REINFORCE.  In both modes (all losses of a batch at once, or one backward pass per episode) and for any
history of episodes, ended or thrown away, each step uses the mean gradient of exactly `batchsize` consecutive ended
episodes, at the parameters they were played with; nothing thrown away and nothing of an earlier batch enters.
In particular both modes train identically. -/
theorem reinforce_gradients (b separately : Bool) (n : Nat) (hn : 0 < n) (clip : Option (G → G)) (o : Opt P G S)
    (grad : E → P → G) (es : List (Option E)) (net : Net P G S) :
    (es.foldl (Rein.endEpisode (K := K) b separately n clip o grad) ⟨net, [], 0⟩).net.value =
      reinforceSpec (K := K) n clip o grad es.length (es.filterMap id) net.value := by
  have hp : Pending (K := K) n separately grad (⟨net, [], 0⟩ : Rein P G S E) [] := by
    refine ⟨hn, ?_⟩
    cases separately <;> simp
  exact reinforce_loop b separately n hn clip o grad es ⟨net, [], 0⟩ [] hp es.length
    (by simpa using List.length_filterMap_le id es)

end

/-! ### The hypotheses are met -/

/-- Plain gradient descent with rate 1 on rational parameters. -/
def sgd : Opt ℚ ℚ Unit := fun _ p g => ((), p - g.getD 0)

/-- TD3-like losses whose actor gradient leaks into the critic: after two updates with garbage in `.grad`, the critic is
where its own losses put it. -/
example :
    let f : Td3Fns ℚ ℚ Unit ℚ :=
      { opt1 := sgd, opt2 := sgd, policyOpt := sgd, clip := some (fun g => g / 2)
        critic1 := fun d _ _ _ q => q - d, critic2 := fun d _ _ _ q => q - 2 * d
        actor := fun _ p q => p - q, actorQ := fun _ _ _ => 100, soft := fun s d => (s + d) / 2, delay := 1 }
    let s : Td3 ℚ ℚ Unit := ⟨⟨0, some 7, ()⟩, ⟨0, some 9, ()⟩, ⟨0, none, ()⟩, 0, 0, 0, 0⟩
    (Td3.update false f (Td3.update false f s 4) 4).q1.param = 3 := by
  decide +kernel

/-- Two A3C processes, interleaved: both gradients are computed at the initial parameters 0, both are applied. -/
example :
    let w : World ℚ ℚ Unit := ⟨fun _ => ⟨.acting, 0, some 5, none⟩, 0, (), []⟩
    let sched : List (Nat × ℚ) := [(0, 1), (1, 2), (0, 1), (1, 2), (0, 1), (1, 2), (0, 1), (1, 2), (1, 2), (0, 1)]
    (sched.foldl (fun w e => w.tick true none sgd (fun d p => p + d) e.1 e.2) w).log = [(1, some 2), (0, some 1)] ∧
    (sched.foldl (fun w e => w.tick true none sgd (fun d p => p + d) e.1 e.2) w).shared = -3 := by
  decide +kernel

/-- REINFORCE, batches of two, one episode thrown away. -/
example :
    ([some 1, none, some 3, some 5].foldl
      (Rein.endEpisode (K := ℚ) false true 2 none sgd (fun (e : ℚ) p => p - e)) ⟨⟨0, some 9, ()⟩, [], 0⟩).net.value =
    ((2 : ℚ), ()) := by
  decide +kernel

end Pfrl.Gradients
