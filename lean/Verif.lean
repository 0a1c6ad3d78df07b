import Verif.Basic
import Verif.Queue.Props
import Verif.Sample.Props
import Verif.Tree.Props
import Verif.Tree.Measure
import Verif.PBuf.Props
import Verif.Weights.Props
import Verif.Replay.Props
import Verif.Episodic.Props
import Verif.Episodic.Prioritized
import Verif.Batch.Props
import Verif.Persist.Props
import Verif.Persist.Replay
import Verif.Persist.Ancestor
import Verif.Categorical.Props
import Verif.Returns.Gae
import Verif.Returns.A3C
import Verif.Returns.Reinforce
import Verif.Returns.Acer
import Verif.Ppo.Minibatch
import Verif.Ppo.Sequences
import Verif.Ppo.Dataset
import Verif.Recurrent.Flatten
import Verif.Recurrent.States
import Verif.Interact.Props
import Verif.Interact.Learner
import Verif.Interact.Actors
import Verif.Eval.Schedule
import Verif.Eval.Async
import Verif.Eval.Episodes
import Verif.Eval.BatchEpisodes
import Verif.Train.Serial
import Verif.Train.Batch
import Verif.Train.Async
import Verif.Envs.Vector
import Verif.Envs.FrameStack
import Verif.Envs.Wrappers
import Verif.Numeric.Actions
import Verif.Numeric.EmpiricalNorm
import Verif.Utils.Modes
import Verif.Utils.CopyParam
import Verif.Utils.ClipNorm
import Verif.Utils.ConjugateGradient
import Verif.Value.ActionValue
import Verif.Value.Targets
import Verif.Agents.LineSearch
import Verif.Agents.SaveLoad
import Verif.Interact.Recurrent
import Verif.Recurrent.Packed
import Verif.Recurrent.Containers
import Verif.Recurrent.Cell
import Verif.Recurrent.Experiences
import Verif.Files.Pretrained
import Verif.Files.OutputDir
import Verif.Numeric.RMSprop
import Verif.Ppo.Loss
import Verif.Value.Losses
import Verif.Weights.Training
import Verif.Files.Results
import Verif.Numeric.Stochastic
import Verif.Agents.Gradients
import Verif.Interact.Segments
import Verif.Interact.AcerSegments
import Verif.Numeric.Temperature
import Verif.Interact.Burnin
import Verif.Envs.Modifiers
import Verif.Numeric.RewardFilter
import Verif.Nn.NoisyLinear
import Verif.Nn.NoisyChain
import Verif.Envs.Lifecycle
import Verif.Weights.Unbiased
import Verif.Returns.PolicyGradient
import Verif.Eval.Statistics
import Verif.Envs.ABC
import Verif.Returns.Critic
import Verif.Value.Iteration
import Verif.Value.SoftIteration
import Verif.Value.Distributional
import Verif.Policies.Mode
import Verif.Nn.Networks
import Verif.Nn.InitScale
import Verif.Envs.Atari
import Verif.Train.WithEval
import Verif.Train.BatchWithEval
import Verif.Train.Tensorboard
import Verif.Train.Replayed
import Verif.Agents.Trpo
import Verif.Envs.Monitor
import Verif.Train.Failure
import Verif.Ppo.Update
import Verif.Train.BatchReplayed
import Verif.Agents.Statistics
import Verif.Value.DoublePal
import Verif.Interact.Snapshot
import Verif.Numeric.Noise
import Verif.Agents.AcerUpdate
import Verif.Files.ExpId
import Verif.Agents.Dpg
import Verif.Train.BatchEvalCalls
import Verif.Agents.TrpoRecurrent
import Verif.Train.Hogwild
import Verif.Train.Workers
import Verif.Agents.Improve
import Verif.Value.Quantiles
import Verif.Agents.SacActor
import Verif.Agents.Inputs
import Verif.Policies.Gradient
import Verif.Value.Dpp
import Verif.Utils.Seeds
import Verif.Tree.Float
import Verif.Categorical.Float
import Verif.Queue.Cost
import Verif.Tree.Cost
import Verif.Numeric.Float
import Verif.Numeric.NormFloat
import Verif.Returns.Float
import Verif.Value.Table
import Verif.Value.Smoothing
import Verif.Value.Linear
import Verif.Sample.Uniform
import Verif.Value.Training
import Verif.Train.WorkerFailure
import Verif.Episodic.Uniform
import Verif.Nn.Dueling
import Verif.Recurrent.Snapshots
import Verif.Envs.LazyFrames
import Verif.Replay.SharedWeights
import Verif.Ppo.Unbiased
import Verif.Value.TrainingExplorers
import Verif.Replay.Unbiased
