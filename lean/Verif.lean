import Verif.Props.Quoting
import Verif.Props.FishQuoting
import Verif.Props.When
import Verif.Props.WhenFish
import Verif.Props.Algo
import Verif.Props.StrUtils
import Verif.Props.Preprocessor
import Verif.Props.Misc
import Verif.Props.Compat
import Verif.Props.CliOptions
import Verif.Props.CliTree
import Verif.Props.Dictionary
import Verif.Props.DictImport
import Verif.Props.Defines
import Verif.Props.Yaml
import Verif.Props.BashPatterns
import Verif.Props.Extensions
import Verif.Props.Helpers
import Verif.Props.ZshQuery
import Verif.Props.FishQuery
import Verif.Props.BashParser
import Verif.Props.FishUtils
import Verif.Props.BashOptions
import Verif.Props.BashVariables
import Verif.Props.ZshUtils
import Verif.Model.Validator
import Verif.Spec.ValidatorSpec
import Verif.Lemmas.Validator
import Verif.Lemmas.ValidatorTree
import Verif.Props.Validator
import Verif.Props.Loading
import Verif.Model.Pattern
import Verif.Spec.GlobConv
import Verif.Lemmas.Pattern
import Verif.Lemmas.PatternOut
import Verif.Props.Pattern
import Verif.Model.Argparse
import Verif.Spec.ArgparseSpec
import Verif.Props.Argparse
import Verif.Lemmas.ValidatorClean
import Verif.Props.ValidatorErrors
import Verif.Model.HelpParser
import Verif.Spec.HelpText
import Verif.Lemmas.HelpParser
import Verif.Props.HelpParser
import Verif.Props.HelpLayout
import Verif.Model.Choices
import Verif.Spec.ChoicesSpec
import Verif.Lemmas.Choices
import Verif.Props.Choices
import Verif.Props.ChoicesFish
import Verif.Model.OptionTypes
import Verif.Spec.OptionTypesSpec
import Verif.Props.OptionTypes
import Verif.Model.Sharing
import Verif.Model.BashFunction
import Verif.Model.FishScript
import Verif.Spec.SharingSpec
import Verif.Spec.BashFunctionSpec
import Verif.Props.Sharing
import Verif.Lemmas.BashFunction
import Verif.Lemmas.BashRun
import Verif.Lemmas.BashDispatch
import Verif.Lemmas.BashOwn
import Verif.Lemmas.BashWord
import Verif.Lemmas.BashArgs
import Verif.Lemmas.BashScript
import Verif.Props.BashFunction
import Verif.Spec.FishScriptSpec
import Verif.Lemmas.FishScript
import Verif.Props.FishScript
import Verif.Model.ZshScript
import Verif.Spec.ZshScriptSpec
import Verif.Lemmas.ZshScript
import Verif.Props.ZshScript
import Verif.Model.CompletionValidator
import Verif.Spec.RevalidateSpec
import Verif.Lemmas.Revalidate
import Verif.Lemmas.RevalidateTree
import Verif.Lemmas.RevalidateDocs
import Verif.Props.Revalidate
import Verif.Spec.CheckedSpec
import Verif.Props.Checked
import Verif.Model.YamlExport
import Verif.Spec.YamlText
import Verif.Spec.YamlExportSpec
import Verif.Lemmas.YamlExport
import Verif.Lemmas.YamlLines
import Verif.Props.YamlExport
import Verif.Model.HelpConverter
import Verif.Spec.HelpYamlSpec
import Verif.Lemmas.HelpConverter
import Verif.Props.HelpConverter
import Verif.Props.HelpAccepted
import Verif.Model.Completers
import Verif.Model.BashComplete
import Verif.Spec.BashCode
import Verif.Spec.BashCompleterSpec
import Verif.Lemmas.BashCode
import Verif.Lemmas.BashStmts
import Verif.Lemmas.BashReads
import Verif.Props.BashComplete
import Verif.Spec.BashExec
import Verif.Spec.CombineSpec
import Verif.Props.BashCombine
import Verif.Spec.TypedWord
import Verif.Spec.ItemList
import Verif.Spec.LineWords
import Verif.Model.BashWords
import Verif.Model.BashValueList
import Verif.Model.BashLine
import Verif.Props.BashWords
import Verif.Props.BashPrefix
import Verif.Props.BashValueList
import Verif.Props.BashLine
import Verif.Spec.KeyValues
import Verif.Model.BashKeyValue
import Verif.Props.BashKeyValue
import Verif.Model.ZshComplete
import Verif.Spec.ZshCode
import Verif.Spec.ZshCompleterSpec
import Verif.Lemmas.ZshReads
import Verif.Lemmas.ZshGood
import Verif.Lemmas.ZshAction
import Verif.Lemmas.ZshLines
import Verif.Lemmas.ZshEach
import Verif.Props.ZshComplete
import Verif.Model.FishComplete
import Verif.Spec.FishCode
import Verif.Spec.FishCompleterSpec
import Verif.Lemmas.FishReads
import Verif.Lemmas.FishEach
import Verif.Props.FishComplete
import Verif.Spec.FishRun
import Verif.Model.FishFile
import Verif.Lemmas.FishCondText
import Verif.Lemmas.FishRuns
import Verif.Lemmas.FishLines
import Verif.Lemmas.FishBlocks
import Verif.Lemmas.FishHead
import Verif.Props.FishFile
import Verif.Model.ZshWrapper
import Verif.Spec.ZshWrapperSpec
import Verif.Lemmas.ZshWrapper
import Verif.Lemmas.ZshWrapperLine
import Verif.Props.ZshWrapper
import Verif.Model.FishCurrent
import Verif.Spec.Typing
import Verif.Props.FishCurrent
import Verif.Model.FishLists
import Verif.Spec.FishLists
import Verif.Props.FishLists
import Verif.Model.FishKeyValue
import Verif.Spec.FishKeyValues
import Verif.Props.FishKeyValue
import Verif.Model.Capture
import Verif.Spec.Captured
import Verif.Props.Capture
import Verif.Spec.Decimal
import Verif.Lemmas.Decimal
import Verif.Spec.ZshText
import Verif.Model.ZshFile
import Verif.Lemmas.ZshLex
import Verif.Lemmas.ZshFileText
import Verif.Lemmas.ZshFileLines
import Verif.Lemmas.ZshFileRun
import Verif.Lemmas.ZshFileSim
import Verif.Lemmas.ZshFileSpecs
import Verif.Props.ZshFile
import Verif.Spec.KeyLines
import Verif.Model.ExecHelpers
import Verif.Props.ExecHelpers
import Verif.Spec.BashText
import Verif.Spec.BashPlain
import Verif.Model.BashFile
import Verif.Lemmas.KernelRfl
import Verif.Lemmas.BashRead
import Verif.Lemmas.BashRead1
import Verif.Lemmas.BashMatch
import Verif.Lemmas.BashRun1
import Verif.Lemmas.BashRun2
import Verif.Lemmas.BashRun3
import Verif.Lemmas.BashRun4
import Verif.Lemmas.BashPlainText
import Verif.Lemmas.BashLocal
import Verif.Props.BashFile
import Verif.Lemmas.BashReadV2
import Verif.Lemmas.BashRunV2
import Verif.Props.BashFileV2
import Verif.Props.BashParsing
import Verif.Props.BashWrapping
import Verif.Props.BashScript
import Verif.Props.ApplicationRuns
import Verif.Props.Settings
import Verif.Props.ZshStyles
import Verif.Props.BashOptionText
import Verif.Props.BashPositionalText
import Verif.Props.BashMasterText
import Verif.Props.BashDispatchText
import Verif.Props.BashDispatchCommand
import Verif.Props.BashCommandArg
import Verif.Props.BashCommandArgText
import Verif.Props.BashFunctionText
import Verif.Props.BashFunctionsText
