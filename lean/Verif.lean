import Verif.Graph
import Verif.Spec.Schedule
import Verif.Lemmas.Dfs
import Verif.Lemmas.Graph
import Verif.Props.Schedule
import Verif.Engine
import Verif.Lemmas.Table
import Verif.Lemmas.Slots
import Verif.Spec.Engine
import Verif.Lemmas.Connect
import Verif.Lemmas.Update
import Verif.Lemmas.History
import Verif.Spec.Toy
import Verif.Props.Engine
import Verif.Lemmas.Chain
import Verif.Lemmas.Staged
import Verif.Lemmas.Total
import Verif.Props.Mirror
import Verif.Spec.Message
import Verif.Lemmas.Message
import Verif.Props.Api
import Verif.RingBuf
import Verif.Spec.RingBuf
import Verif.Lemmas.RingBuf
import Verif.Props.RingBuf
import Verif.Lemmas.Eval
import Verif.Wasm
import Verif.Spec.Wasm
import Verif.Props.Wasm
import Verif.Fl
import Verif.Lemmas.Fl
import Verif.Ast
import Verif.Nodes.Base
import Verif.Nodes.Basic
import Verif.Nodes.Delay
import Verif.Nodes.Osc
import Verif.Nodes.Envelope
import Verif.Nodes.Filter
import Verif.Nodes.Seq
import Verif.ParseNum
import Verif.Nodes.Sampler
import Verif.Nodes.Synth
import Verif.Nodes.Prim
import Verif.Nodes.Compound
import Verif.Make
import Verif.Spec.Nodes
import Verif.Lemmas.KernelRfl
import Verif.Lemmas.Nodes
import Verif.Props.Delay
import Verif.Props.Source
import Verif.Props.Osc
import Verif.Props.Arith
import Verif.Props.SetParam
import Verif.Lemmas.Loop
import Verif.Lemmas.Rel
import Verif.Spec.Signal
import Verif.Props.Envelope
import Verif.Lemmas.Count
import Verif.ParseSeq
import Verif.Props.Points
import Verif.Props.Sequencer
import Verif.Props.Choose
import Verif.Props.Sampler
import Verif.Props.Order
import Verif.Lemmas.Shape
import Verif.Lemmas.Play
import Verif.Spec.Safe
import Verif.Spec.Demo
import Verif.Lemmas.AtLeast
import Verif.Lemmas.SafeNodes
import Verif.Lemmas.KeepOrder
import Verif.Lemmas.SafeCompound
import Verif.Lemmas.SafePlate
import Verif.Lemmas.SafeMake
import Verif.Lemmas.SafeG
import Verif.Props.Playing
import Verif.Props.EngineBugs
import Verif.Lemmas.InForce
import Verif.Props.Resend
import Verif.Spec.Life
import Verif.Lemmas.Tempo
import Verif.Props.Tempo
import Verif.Spec.Places
import Verif.Lemmas.Places
import Verif.Props.HashOrder
import Verif.Parser.Nodes
import Verif.Spec.Parser
import Verif.Lemmas.Peg
import Verif.Lemmas.Tokens
import Verif.Lemmas.ParseTree
import Verif.Spec.Write
import Verif.Lemmas.ReadNum
import Verif.Lemmas.ReadItems
import Verif.Lemmas.ReadPattern
import Verif.Lemmas.ReadPoints
import Verif.Lemmas.ReadNode
import Verif.Lemmas.ReadProg
import Verif.Lemmas.Colon
import Verif.Lemmas.Written
import Verif.Spec.Printable
import Verif.Lemmas.Print
import Verif.Props.Parser
import Verif.Props.RoundTrip
import Verif.Spec.Flow
import Verif.Props.Flow
import Verif.Spec.Build
import Verif.Lemmas.Build
import Verif.Spec.Text
import Verif.Props.Glicol
import Verif.Spec.Compose
import Verif.Props.Compose
import Verif.Lemmas.Dest
import Verif.Lemmas.SetOrder
import Verif.Lemmas.Channels
import Verif.Spec.Sound
import Verif.Props.Sound
import Verif.Spec.Inputs
import Verif.Lemmas.Inputs
import Verif.Props.Noise
import Verif.Spec.Arrange
import Verif.Props.Arrange
import Verif.Spec.SeqRef
import Verif.Props.SeqRef
import Verif.Nodes.Voices
import Verif.Spec.Voices
import Verif.Props.Voices
import Verif.Spec.PatText
import Verif.Lemmas.PatText
import Verif.Spec.PatSynth
import Verif.Props.PatSynth
import Verif.Spec.Stream
import Verif.Lemmas.Stream
import Verif.Lemmas.StreamNodes
import Verif.Lemmas.StreamMore
import Verif.Lemmas.StreamRest
import Verif.Lemmas.StreamDelay
import Verif.Lemmas.StreamPlay
import Verif.Lemmas.StreamSound
import Verif.Lemmas.Single
import Verif.Lemmas.SingleMake
import Verif.Spec.TextBlocks
import Verif.Props.BlockSize
import Verif.Spec.Filter
import Verif.Props.Filter
import Verif.Lemmas.Patch
import Verif.Lemmas.CompoundParts
import Verif.Lemmas.StreamCompound
import Verif.Spec.Compound
import Verif.Props.Compound
import Verif.Worklet
import Verif.Spec.Queue
import Verif.Spec.Worklet
import Verif.Lemmas.Queue
import Verif.Lemmas.Worklet
import Verif.Lemmas.Silence
import Verif.Props.Worklet
import Verif.NodeChain
import Verif.Spec.NodeChain
import Verif.Props.NodeChain
import Verif.Context
import Verif.Spec.Context
import Verif.Lemmas.Context
import Verif.Props.Context
import Verif.Spec.Samples
import Verif.Props.Unknown
import Verif.Props.Stereo
import Verif.Page
import Verif.Spec.Page
import Verif.Props.Page
import Verif.Report
import Verif.Spec.Report
import Verif.Props.Report
import Verif.Inline
import Verif.Spec.Inline
import Verif.Props.Inline
import Verif.Spec.Plate
import Verif.Lemmas.PlateParts
import Verif.Lemmas.PlateStream
import Verif.Lemmas.PlateNet
import Verif.Lemmas.PlateQuiet
import Verif.Props.Plate
import Verif.Script
import Verif.Spec.Script
import Verif.Lemmas.Script
import Verif.Props.Script
import Verif.Spec.Live
import Verif.Lemmas.Live
import Verif.Lemmas.LiveScript
import Verif.Props.Live
import Verif.Props.LiveEnvelope
import Verif.Props.LiveScript
import Verif.Spec.Pan
import Verif.Props.Pan
import Verif.Props.LivePan
import Verif.Props.LiveAdsr
import Verif.Props.LiveRestart
import Verif.Spec.Untouched
import Verif.Lemmas.PlaceInv
import Verif.Lemmas.OrderHead
import Verif.Lemmas.Kin
import Verif.Lemmas.UntouchedFlow
import Verif.Props.Untouched
import Verif.Spec.AnyTime
import Verif.Lemmas.OpNode
import Verif.Props.AnyTime
import Verif.Startup
import Verif.Spec.Startup
import Verif.Props.Startup
import Verif.Spec.Freq
import Verif.Props.Freq
import Verif.PagePlay
import Verif.Spec.PagePlay
import Verif.Spec.PageSafe
import Verif.Spec.TrackAmp
import Verif.Props.PagePlay
import Verif.Props.PageSafe
import Verif.Props.TrackAmp
import Verif.Glue
import Verif.Handles
import Verif.Spec.Glue
import Verif.Spec.Handles
import Verif.Lemmas.Glue
import Verif.Lemmas.GlueMem
import Verif.Lemmas.GluePass
import Verif.Props.Glue
import Verif.Props.Handles
import Verif.Spec.Settings
import Verif.Lemmas.Settings
import Verif.Props.Settings
import Verif.Spec.Input
import Verif.Props.Input
import Verif.Lemmas.Sim
import Verif.Spec.TempoUse
import Verif.Props.TempoUse
import Verif.Lemmas.Rename
import Verif.Spec.Rename
import Verif.Props.Rename
import Verif.Props.Past
import Verif.Lemmas.Double
import Verif.Spec.Part
import Verif.Lemmas.Part
import Verif.Props.Part
import Verif.Lemmas.Told
import Verif.Lemmas.Renumber
import Verif.Lemmas.SingleCompound
import Verif.Spec.Unheard
import Verif.Props.Unheard
import Verif.Lemmas.ScriptFirst
import Verif.Lemmas.StreamEval
import Verif.Spec.Shared
import Verif.Props.Shared
import Verif.Spec.Tracks
import Verif.Props.Tracks
import Verif.Spec.AllPass
import Verif.Props.AllPass
import Verif.Spec.LiveCompound
import Verif.Lemmas.LiveCompound
import Verif.Props.LiveCompound
import Verif.Spec.Effect
import Verif.Props.Effect
import Verif.Spec.Combine
import Verif.Props.Combine
import Verif.Props.Mixing
import Verif.Props.Modulate
import Verif.Props.SineOf
import Verif.Props.Echo
import Verif.Props.Tone
import Verif.Props.Sweep
import Verif.Props.WaveOf
import Verif.Props.Place
import Verif.Spec.Session
import Verif.Props.Whole
import Verif.Lemmas.SetNumber
import Verif.Props.Session
