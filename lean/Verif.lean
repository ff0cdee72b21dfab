import Verif.Props.Codec
import Verif.Props.Utils
import Verif.Props.NaiveHash
import Verif.Props.Params
import Verif.Props.Tree
import Verif.Props.Poly
import Verif.Props.Rlwe
import Verif.Props.Keyswitch
import Verif.Props.Lwe
import Verif.Props.EncEval
import Verif.Props.Oram
import Verif.Props.OramSetup
import Verif.Props.OramShape
import Verif.Props.Multi
import Verif.Props.Batch
import Verif.Props.Sched
import Verif.Props.Oblivious
import Verif.Props.Session
import Verif.Props.Main
import Verif.Props.DecryptDb
import Verif.Props.Simulate
import Verif.Props.OneMultiRow
import Verif.Props.Context
import Verif.Props.Crash
import Verif.Props.Fresh
import Verif.Props.Fourier
import Verif.Props.PdteOblivious
import Verif.Props.Poison
import Verif.Props.Machine
import Verif.Props.Json
import Verif.Props.Measured
import Verif.Props.MeasuredTree
import Verif.Props.Report
import Verif.Spec.MeasuredMulti
import Verif.Props.MeasuredMulti
import Verif.Spec.Csv
import Verif.Props.Csv
import Verif.Spec.View
import Verif.Props.View
import Verif.Model.ParMap
import Verif.Spec.ParMap
import Verif.Props.ParMap
import Verif.Model.Noise
import Verif.Spec.Noise
import Verif.Props.Noise
import Verif.Lemmas.Draws
import Verif.Spec.Chance
import Verif.Props.Chance
import Verif.Model.Flat
import Verif.Model.FlatFourier
import Verif.Spec.Flat
import Verif.Lemmas.Flat
import Verif.Props.Flat
import Verif.Props.FlatKeys
import Verif.Props.FlatFourier
import Verif.Model.Cost
import Verif.Spec.Cost
import Verif.Props.Cost
import Verif.Model.Bench
import Verif.Spec.Bench
import Verif.Props.Bench
import Verif.Model.Prog
import Verif.Spec.Prog
import Verif.Props.Prog
import Verif.Model.Tests
import Verif.Props.Tests
import Verif.Props.TestsMore
import Verif.Props.TestsDefault
import Verif.Model.TestsOram
import Verif.Props.TestsOram
import Verif.Props.TestsOramBatch
import Verif.Model.FlatTree
import Verif.Spec.FlatTree
import Verif.Props.FlatTree
import Verif.Model.FlatOram
import Verif.Spec.FlatOram
import Verif.Lemmas.FlatOram
import Verif.Props.FlatOram
import Verif.Model.JsonText
import Verif.Spec.JsonText
import Verif.Lemmas.JsonText
import Verif.Props.JsonText
import Verif.Model.CliArgs
import Verif.Spec.CliArgs
import Verif.Lemmas.CliArgs
import Verif.Props.CliArgs
import Verif.Model.Shuffle
import Verif.Spec.Shuffle
import Verif.Lemmas.Shuffle
import Verif.Lemmas.PermCount
import Verif.Props.Shuffle
import Verif.Props.ShuffleRun
import Verif.Spec.Secure
import Verif.Props.Secure
import Verif.Spec.Adaptive
import Verif.Props.Adaptive
import Verif.Spec.NoiseNeeded
import Verif.Props.NoiseNeeded
import Verif.Spec.MeasuredMain
import Verif.Props.MeasuredMain
import Verif.Spec.MeasuredTests
import Verif.Props.MeasuredTests
import Verif.Spec.Leak
import Verif.Props.Leak
import Verif.Spec.Deliver
import Verif.Props.Deliver
import Verif.Spec.Tamper
import Verif.Props.Tamper
import Verif.Spec.Mixed
import Verif.Props.Mixed
import Verif.Spec.MixedArray
import Verif.Props.MixedArray
import Verif.Spec.MeasuredMixed
import Verif.Props.MeasuredMixed
import Verif.Spec.FlatMixed
import Verif.Props.FlatMixed
import Verif.Model.FlatMain
import Verif.Spec.FlatMain
import Verif.Props.FlatMain
