import Verif.Props.RandomAccessQueue
import Verif.Props.SampleNK
import Verif.Props.TreeQueue
import Verif.Props.PrioritizedBuffer
import Verif.Props.ReplayBuffer
import Verif.Props.EpisodicBuffer
import Verif.Props.PrioritizedEpisodic
import Verif.Props.BatchExperiences
import Verif.Props.ReplayUpdater
import Verif.Props.PriorityWeights
import Verif.Props.EpsilonGreedy
import Verif.Props.TrainAgent
import Verif.Props.TrainAgentBatch
import Verif.Props.TrainAgentAsync
import Verif.Props.Evaluator
import Verif.Props.AsyncEvaluator
import Verif.Props.RunEval
import Verif.Props.BatchRunEval
import Verif.Props.CollectDemos
import Verif.Props.AgentSave
import Verif.Props.VectorEnv
import Verif.Props.FrameStack
import Verif.Props.Wrappers
import Verif.Props.RewardFilter
import Verif.Props.DQN
import Verif.Props.ActionValue
import Verif.Props.Targets
import Verif.Props.Categorical
import Verif.Props.IQN
import Verif.Props.NStep
import Verif.Props.A2C
import Verif.Props.PPOData
import Verif.Props.PPOBook
import Verif.Props.ACER
import Verif.Props.PCL
import Verif.Props.Reinforce
import Verif.Props.TRPO
import Verif.Props.CG
import Verif.Props.CopyParam
import Verif.Props.EmpiricalNorm
import Verif.Props.Recurrent
import Verif.Props.StatelessRecurrent
import Verif.Props.NumericFns
import Verif.Props.Distrib
import Verif.Props.Gaussian
import Verif.Props.ActorCritic
import Verif.Props.Explorers
import Verif.Props.NStepForward
import Verif.Props.RecurrentUpdate
import Verif.Props.RecurrentDDPG
import Verif.Props.SharedObjects
import Verif.Props.ALE
import Verif.Props.Optimizers
import Verif.Props.Noisy
import Verif.Props.PPOLoss
import Verif.Props.Epochs
import Verif.Props.TRPOStep
import Verif.Props.ValueLoss
import Verif.Props.Functions
import Verif.Props.QHeads
import Verif.Props.AtariPipeline
import Verif.Props.ABC
import Verif.Props.Sequence
import Verif.Props.FCNets
import Verif.Props.Initializers
import Verif.Props.OnlineReplay
import Verif.Props.NoisyLinear
import Verif.Props.Pretrained
import Verif.Props.OutputDir
import Verif.Props.Sampling
import Verif.Props.PolicyGradient
import Verif.Props.SAC
import Verif.Props.PGT
import Verif.Props.CategoricalLoss
import Verif.Props.RunAsync
import Verif.Props.IQNUpdate
import Verif.Props.PPODataset
import Verif.Model.EvalCalls
import Verif.Props.EvalCalls
import Verif.Model.AsyncUpdate
import Verif.Props.AsyncUpdate
import Verif.Model.Monitor
import Verif.Props.Monitor
import Verif.Model.VectorLife
import Verif.Props.VectorLife
import Verif.Model.OldSumTree
import Verif.Props.OldSumTree
import Verif.Model.TargetNet
import Verif.Props.TargetNet
import Verif.Model.AverageReward
import Verif.Props.AverageReward
import Verif.Model.AgentStats
import Verif.Props.AgentStats
import Verif.Model.Snapshots
import Verif.Props.Snapshots
import Verif.Model.Results
import Verif.Props.Results
import Verif.Model.Gpu
import Verif.Props.Gpu
import Verif.Model.TrainDQN
import Verif.Spec.TrainDQN
import Verif.Props.TrainDQN
import Verif.Model.TrainBatchDQN
import Verif.Spec.TrainBatchDQN
import Verif.Props.TrainBatchDQN
import Verif.Model.TrainCalls
import Verif.Spec.TrainCalls
import Verif.Props.TrainCalls
import Verif.Model.TrainBatchCalls
import Verif.Spec.TrainBatchCalls
import Verif.Props.TrainBatchCalls
import Verif.Model.TrainAsyncCalls
import Verif.Spec.TrainAsyncCalls
import Verif.Props.TrainAsyncCalls
import Verif.Model.PCLRecurrent
import Verif.Spec.PCLRecurrent
import Verif.Props.PCLRecurrent
import Verif.Model.BatchNorm
import Verif.Spec.BatchNorm
import Verif.Props.BatchNorm
import Verif.Model.Npz
import Verif.Spec.Npz
import Verif.Props.Npz
import Verif.Model.SDN
import Verif.Props.SDN
import Verif.Model.SimpleWrappers
import Verif.Spec.SimpleWrappers
import Verif.Props.SimpleWrappers
import Verif.Model.ConvHeads
import Verif.Props.ConvHeads
import Verif.Model.TrainPrioritized
import Verif.Props.TrainPrioritized
import Verif.Model.Resume
import Verif.Proofs.Resume
import Verif.Props.Resume
import Verif.Model.DPPOperators
import Verif.Props.DPPOperators
import Verif.Spec.Optimality
import Verif.Props.Optimality
import Verif.Spec.SoftOptimality
import Verif.Props.SoftOptimality
import Verif.Spec.Retrace
import Verif.Props.Retrace
import Verif.Spec.OnPolicy
import Verif.Props.OnPolicy
import Verif.Spec.ContinuousPolicy
import Verif.Props.ContinuousPolicy
import Verif.Props.NStepQ
import Verif.Props.ResumeAgents
import Verif.Props.Float64
import Verif.Props.OldStyle
import Verif.Props.TRPOUpdate
import Verif.Props.GapLearning
import Verif.Props.DPPLearning
import Verif.Props.FCLSTM
import Verif.Props.CategoricalLearning
import Verif.Props.PolicyIteration
import Verif.Props.DistribBatch
import Verif.Props.PolicyImprovement
import Verif.Model.TabularDQN
import Verif.Proofs.AsyncIteration
import Verif.Props.TabularDQN
import Verif.Model.InitLikeTorch
import Verif.Props.InitLikeTorch
import Verif.Model.Helpers
import Verif.Props.Helpers
import Verif.Proofs.StochasticApproximation
import Verif.Proofs.NoiseSeries
import Verif.Proofs.UniformDraws
import Verif.Props.QLearning
import Verif.Props.QLearningExists
import Verif.Props.QLearningExplores
import Verif.Props.QLearningWalk
import Verif.Props.QLearningGreedy
import Verif.Props.FixedReplay
import Verif.Model.ResidualDQN
import Verif.Props.ResidualDQN
import Verif.Props.DoubleIteration
import Verif.Spec.PriorityFair
import Verif.Props.PriorityFair
import Verif.Props.SarsaIteration
import Verif.Props.ExampleSeeds
import Verif.Props.Grasping
import Verif.Props.BetaSteps
import Verif.Props.DecayHooks
import Verif.Props.SarsaLearning
import Verif.Props.SarsaRun
import Verif.Props.TrainSyncCalls
import Verif.Props.IQNLearning
import Verif.Props.PolicyRest
import Verif.Spec.StepLimits
import Verif.Props.StepLimits
import Verif.Spec.BatchLimits
import Verif.Props.BatchLimits
import Verif.Model.TrustRegion
import Verif.Spec.TrustRegion
import Verif.Props.TrustRegion
import Verif.Props.LimitsPolicy
import Verif.Props.BatchLimitsPolicy
import Verif.Props.AsyncLimits
import Verif.Model.Sharing
import Verif.Spec.Sharing
import Verif.Proofs.Sharing
import Verif.Proofs.SharingBuffer
import Verif.Proofs.SharingWeights
import Verif.Props.Sharing
import Verif.Model.AtariStack
import Verif.Spec.AtariStack
import Verif.Proofs.AtariStack
import Verif.Proofs.AtariFrames
import Verif.Proofs.AtariLives
import Verif.Props.AtariStack
import Verif.Proofs.AtariTraining
import Verif.Props.AtariTraining
import Verif.Spec.AtariScores
import Verif.Props.AtariScores
import Verif.Props.AtariScoresBatch
import Verif.Model.RecurrentEpochs
import Verif.Spec.RecurrentEpochs
import Verif.Props.RecurrentEpochs
import Verif.Props.RecurrentRuns
import Verif.Model.OpenBatches
import Verif.Spec.OpenBatches
import Verif.Props.OpenBatches
import Verif.Props.LostEntries
import Verif.Model.OpenBatchesRun
import Verif.Props.OpenBatchesRun
import Verif.Props.OpenBatchesN
