import Verif.Basic
import Verif.Char
import Verif.Props.CharVariants
import Verif.Repertoire
import Verif.RepLemmas
import Verif.Props.RepertoireMap
import Verif.Props.RepertoireRange
import Verif.Props.RepertoireIter
import Verif.Collapse
import Verif.Props.Collapse
import Verif.Rfc7940
import Verif.Props.Rfc7940
import Verif.Text
import Verif.Props.Text
import Verif.References
import Verif.Props.References
import Verif.Label
import Verif.LabelLemmas
import Verif.Props.Eligibility
import Verif.Props.Index
import Verif.Action
import Verif.Props.Action
import Verif.Variants
import Verif.Props.Variants
import Verif.Disposition
import Verif.Props.Disposition
import Verif.Props.IndexClass
import Verif.Lgr
import Verif.Props.LgrEdit
import Verif.LgrOps
import Verif.Props.LgrRange
import Verif.Props.LgrState
import Verif.Props.Expand
import Verif.Props.LgrTags
import Verif.VariantSets
import Verif.Props.VariantSets
import Verif.Validate
import Verif.Props.Validate
import Verif.Populate
import Verif.Props.Populate
import Verif.Props.PopulateRules
import Verif.Collisions
import Verif.Props.Collisions
import Verif.Compare
import Verif.Props.Compare
import Verif.Props.CompareRules
import Verif.Props.CompareRefs
import Verif.Metadata
import Verif.Props.Metadata
import Verif.Classes
import Verif.Rule
import Verif.Props.Classes
import Verif.Props.Rules
import Verif.Props.RuleState
import Verif.Props.RuleLimits
import Verif.Checks
import Verif.Props.IterIntact
import Verif.Props.Stats
import Verif.Props.Checks
import Verif.Props.ChecksRfc
import Verif.Props.Rebuild
import Verif.Tables
import Verif.Props.TableItems
import Verif.Props.TableSyntax
import Verif.Props.Tables
import Verif.Props.Tables3743
import Verif.Review
import Verif.ReviewSets
import Verif.Props.Review
import Verif.Props.ReviewClasses
import Verif.Props.ReviewRepertoire
import Verif.Props.ReviewRules
import Verif.Props.ReviewLabels
import Verif.Props.ReviewSets
import Verif.Props.ReviewPairing
import Verif.Props.ReviewChecks
import Verif.Props.ReviewReport
import Verif.Props.ReviewVariants
import Verif.Props.ReviewMappings
import Verif.Props.ReviewResults
import Verif.Props.ReviewKinds
import Verif.Props.ReviewSelf
import Verif.Harmonize
import Verif.Props.Harmonize
import Verif.Props.PopulateTotal
import Verif.Props.HarmonizeTotal
import Verif.Xml
import Verif.Props.XmlText
import Verif.Props.XmlOrder
import Verif.Props.Xml
import Verif.Props.XmlCheck
import Verif.MergeSet
import Verif.Props.MergeRefs
import Verif.Props.MergeChars
import Verif.Props.MergeReread
import Verif.Props.MergeSet
import Verif.Props.MergeRules
import Verif.Props.MergeWitness
import Verif.Props.MergeContext
import Verif.MetaXml
import Verif.Props.MetaXml
import Verif.Props.MetaHistory
import Verif.RulesXml
import Verif.Props.RulesXml
import Verif.Props.RulesXmlWrong
import Verif.Props.ClassXml
import Verif.Props.RulesMeaning
import Verif.Props.RulesMeaning2
import Verif.Props.RulesMeaning3
import Verif.Props.RulesMeaning4
import Verif.Props.RulesMeaning5
import Verif.DocXml
import Verif.Props.DocData
import Verif.Props.DocMeta
import Verif.Props.DocXml
import Verif.Props.DocXmlWrong
import Verif.Props.DataMeaning
import Verif.Props.DocLabels
import Verif.Props.DocDisp
import Verif.Props.DocLabelsEx
import Verif.Props.DocVariants
import Verif.Props.DocVariantsEx
import Verif.LabelInput
import Verif.CollisionReports
import Verif.Props.LabelInput
import Verif.Props.RzScript
import Verif.Props.Annotate
import Verif.Props.CollisionReports
import Verif.Props.CollisionReports2
import Verif.Props.CollisionReports3
import Verif.Props.CollisionReports4
import Verif.Props.CollisionReports5
import Verif.Props.CollisionReports6
import Verif.Props.CollisionReports7
import Verif.Diff
import Verif.Props.Diff
import Verif.Props.DiffSets
import Verif.MergeXml
import Verif.Props.MergeText
import Verif.Props.MergeNames
import Verif.Props.MergeMeaning
import Verif.Props.MergeActions
import Verif.Props.MergeSection
import Verif.Props.MergeMatch
import Verif.Props.MergeDisp
import Verif.Props.MergeCases
import Verif.Props.MergeWrong
import Verif.Props.MergeMeta
import Verif.Cli
import Verif.Props.Cli
import Verif.Props.CliSet
import Verif.Idna2008
import Verif.ReviewGeneral
import Verif.Props.Idna2008
import Verif.Props.ReviewGeneral
import Verif.Rfc7940Tool
import Verif.Props.Rfc7940Tool
import Verif.Props.Rfc7940Verdict
import Verif.IdnaTable
import Verif.Props.IdnaTable
import Verif.Props.ReviewTags
import Verif.Scripts
import Verif.Props.Scripts
import Verif.Props.XmlEscape
import Verif.RuleText
import Verif.Props.RuleText
import Verif.PopulateTool
import Verif.Props.PopulateXml
import Verif.Props.PopulateTool
import Verif.Memo
import Verif.Props.Memo
import Verif.Props.CompareLabels
import Verif.Props.PopulateLabels
import Verif.Props.PopulateIndex
import Verif.Props.HarmonizeLabels
import Verif.Props.HarmonizeIndex
import Verif.Props.MergeLabels
import Verif.AnnotateSet
import Verif.Props.AnnotateSet
import Verif.Props.MergeIndex
import Verif.CompareTool
import Verif.Props.RulesAny
import Verif.Props.CompareGood
import Verif.Props.CompareMeta
import Verif.Props.CompareSections
import Verif.Props.CompareTool
import Verif.Props.CompareToolWrong
import Verif.HarmonizeTool
import Verif.Props.HarmonizeXml
import Verif.Props.HarmonizeTool
import Verif.DumpTool
import Verif.Props.DumpTool
import Verif.MergeTool
import Verif.Props.MergeToolMeta
import Verif.Props.MergeTool
import Verif.Props.MergeToolEx
import Verif.Args
import Verif.Props.Args
import Verif.ReviewTool
import Verif.Props.ReviewTool
import Verif.AllTags
import Verif.Props.AllTags
import Verif.Schema
import Verif.Props.Schema
import Verif.Props.SchemaText
import Verif.Props.SchemaData
import Verif.Props.SchemaMeta
import Verif.Props.SchemaDoc
import Verif.Props.MetaMeaning
import Verif.Props.RulesRead
import Verif.Props.RulesSchema
import Verif.Props.RulesDb
import Verif.Sections
import Verif.Props.Sections
import Verif.Props.LongestMatch
import Verif.Props.DocVariantsAll
import Verif.Props.DocIndex
import Verif.Props.DocChecks
import Verif.Props.DocCollisions
import Verif.Props.DocReport
import Verif.Props.Spaces3743
import Verif.Props.AnyTable
import Verif.Props.DocStats
import Verif.Props.AnyTable3743
import Verif.Props.DocReportFull
import Verif.Props.RefLines
import Verif.Props.DumpAny
import Verif.Props.AnnotateDoc
import Verif.Props.TableLabels
import Verif.Props.TableVariants
import Verif.Props.TableEstimate
import Verif.Props.TableChecks
