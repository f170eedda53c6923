import Verif.Props.C01_RingBuffer
import Verif.Props.C02_RingBufferConc
import Verif.Props.C03_Wire
import Verif.Props.C06_Requests
import Verif.Props.C11_Broadcast
import Verif.Props.C13_Lifecycle
import Verif.Props.C16_Registry
import Verif.Props.C14_Loopback
import Verif.Props.C18_Collector
import Verif.Props.C17_Discovery
import Verif.Props.C59_Destinations
import Verif.Props.C21_TraceState
import Verif.Props.C25_Configurator
import Verif.Props.C23_Scopes
import Verif.Props.C26_TraceId
import Verif.Props.C29_RegisterOnce
import Verif.Props.C45_MapTracker
import Verif.Props.C46_ThreadNames
import Verif.Props.C47_Endpoints
import Verif.Props.C30_Cbor
import Verif.Props.C31_NativeSource
import Verif.Props.C35_ScopeNames
import Verif.Props.C64_Timestamps
import Verif.Props.C34_Recording
import Verif.Props.C37_Session
import Verif.Props.C39_Backend
import Verif.Props.C40_Recorder
import Verif.Props.C66_SessionThreads
import Verif.Props.C42_Manager
import Verif.Props.C57_GeneralSource
import Verif.Props.C50_Ctf
import Verif.Props.C52_LttngSource
import Verif.Props.C53_LttngSessions
import Verif.Props.C70_LttngStream
import Verif.Props.C71_LttngTool
import Verif.Props.C54_PyJson
import Verif.Props.C56_PyTracing
import Verif.Model.EndToEnd
import Verif.Spec.EndToEnd
import Verif.Proofs.EndToEnd
import Verif.Proofs.EndToEndData
import Verif.Proofs.EndToEndResult
import Verif.Proofs.EndToEndLossless
import Verif.Props.C58_EndToEnd
import Verif.Props.C76_PyPoll
import Verif.Props.C77_PyData
import Verif.Props.C79_PyLoopback
import Verif.Props.C80_PyHelper
import Verif.Props.C81_PyTool
import Verif.Props.C83_PyRecord
import Verif.Props.C84_Server
import Verif.Props.C87_PyServer
import Verif.Model.ManagerThreads
import Verif.Spec.ManagerThreads
import Verif.Proofs.ManagerThreads
import Verif.Proofs.ManagerProgress
import Verif.Props.C88_ManagerThreads
import Verif.Props.C36_MacroNames
import Verif.Props.C90_PySource
import Verif.Proofs.UnixThreads
import Verif.Proofs.UnixThreadsProgress
import Verif.Proofs.UnixThreadsRaces
import Verif.Props.C92_UnixThreads
import Verif.Props.C94_LostConnection
import Verif.Model.UnixBlock
import Verif.Props.C95_SlowClients
import Verif.Model.Lifetime
import Verif.Props.C96_Lifetimes
import Verif.Model.LoopbackLife
import Verif.Props.C97_LoopbackLife
import Verif.Model.LoopbackCalls
import Verif.Props.C98_LoopbackCalls
import Verif.Model.UnixFds
import Verif.Props.C99_Descriptors
import Verif.Props.C101_LttngEndToEnd
import Verif.Props.C102_PyUnix
import Verif.Props.C103_PyViewer
import Verif.Props.C104_Inherit
import Verif.Props.C105_LttngStderr
import Verif.Props.C106_UnixMutual
import Verif.Props.C107_Departed
import Verif.Props.C108_Refs
import Verif.Props.C109_PyHandle
import Verif.Props.C110_Exposer
import Verif.Props.C111_ServerThreads
import Verif.Props.C112_UnixSignal
import Verif.Props.C113_CutSend
import Verif.Props.C114_PyBackend
import Verif.Props.C115_PyFactory
import Verif.Props.C116_EndedNames
import Verif.Props.C117_LoopbackOwner
import Verif.Props.C118_NeverWaits
import Verif.Props.C119_TwoSenders
import Verif.Props.C120_PyTransparent
import Verif.Props.C121_ForkTrace
import Verif.Props.C122_ProgramEnd
import Verif.Props.C123_ProcessName
import Verif.Props.C124_PyNone
import Verif.Props.C125_PyRecords
import Verif.Props.C126_Bson
import Verif.Props.C127_BsonStack
import Verif.Props.C128_BsonEndpoints
import Verif.Props.C129_ViewerBuffer
import Verif.Props.C130_Query
import Verif.Props.C131_PyConfig
import Verif.Props.C132_PyClass
import Verif.Props.C133_UnixStream
import Verif.Props.C134_PyGenerators
import Verif.Props.C135_PyNames
import Verif.Props.C136_LttngProcs
import Verif.Props.C137_PySourceClass
import Verif.Props.C138_Ownership
import Verif.Props.C139_RecorderHistory
import Verif.Props.C140_CommandLine
import Verif.Props.C141_RemoteSwitch
import Verif.Props.C142_Dying
import Verif.Props.C143_Examples
import Verif.Props.C144_QueryServers
import Verif.Props.C145_ThreadRows
import Verif.Props.C146_BufferMemory
import Verif.Props.C147_IntervalEdges
import Verif.Props.C148_PyMarks
import Verif.Props.C149_PyExamples
import Verif.Props.C150_Sections
import Verif.Props.C151_Overrun
import Verif.Props.C152_SwitchedScopes
import Verif.Props.C65_BadEvent
import Verif.Props.C153_TracedThreads
import Verif.Props.C154_NameUpdates
import Verif.Props.C155_RepeatedEnds
import Verif.Props.C156_TimeAxis
import Verif.Props.C157_PySets
import Verif.Props.C158_PyGraph
import Verif.Props.C159_QueryNumbers
import Verif.Props.C160_Interrupts
import Verif.Props.C161_LttngContexts
import Verif.Props.C63_Exactly
import Verif.Props.C73_Exactly
import Verif.Props.C97_Exactly
import Verif.Props.C105_Exactly
import Verif.Props.C14_Exactly
import Verif.Props.C107_Exactly
import Verif.Props.C33_Exactly
import Verif.Props.C127_Exactly
import Verif.Props.C07_Exactly
import Verif.Props.C06_Exactly
import Verif.Props.C18_Exactly
import Verif.Props.C17_Halves
import Verif.Props.C26_Exactly
import Verif.Props.C29_Exactly
import Verif.Props.C41_Exactly
import Verif.Props.C62_Exactly
import Verif.Props.C80_Settled
import Verif.Props.C56_Exactly
import Verif.Props.C131_Exactly
import Verif.Props.C128_Exactly
import Verif.Props.C136_Exactly
import Verif.Props.C149_Exactly
import Verif.Props.C144_Exactly
